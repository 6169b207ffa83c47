{"id": "C01", "title": "mirror reflects the angular index and is its own inverse", "statement": "Psgrid.mirror(f) returns an array of the same shape whose value at grid point (angular ia, radial ir, column s) is the value of f at (Na-1-ia, ir, s); applying it twice returns f. An array whose size is not a whole multiple of Nelem raises instead of being silently truncated.", "quantifier": "every grid size Na,Nr, every number of columns, every array (1-d or 2-d)", "why_tests_cant": "an index-arithmetic claim over all sizes and all arrays; a test samples a few grids and a wrong stride can agree on square grids", "anchors": ["CADMium/psgrid/mirror.py:mirror", "CADMium/psgrid/square.py:square"]}
{"id": "C02", "title": "spinflip is an involution that commutes with mirror", "statement": "Psgrid.spinflip exchanges the spin columns of a 2-d array (identity with a warning on a 1-d array), is its own inverse, and spinflip(mirror(f)) == mirror(spinflip(f)).", "quantifier": "every grid size, every number of spin columns, every array", "why_tests_cant": "universally quantified over arrays and shapes", "anchors": ["CADMium/psgrid/spinflip.py:spinflip", "CADMium/psgrid/mirror.py:mirror"]}
{"id": "C03", "title": "grid coordinates are half-step, strictly ordered, inside the box and reflection symmetric", "statement": "After initialize(), xa[i]=(i+1/2)*pi/Na and xr[i]=(i+1/2)*L/Nr; both are strictly increasing, xa lies strictly inside (0,pi), xr strictly inside (0,L), xa[Na-1-i]=pi-xa[i]; the flat arrays Xa,Xr hold xa[ia],xr[ir] at position ia+Na*ir; bXr continues xr beyond L with the same step.", "quantifier": "every NP, NM, L>0", "why_tests_cant": "holds for every grid size and box length; tests check a single grid", "anchors": ["CADMium/psgrid/initialize.py:initialize"]}
{"id": "C04", "title": "volume element, angular potential and scale factors are positive and mirror symmetric", "statement": "For a>0 and L>0 the volume element w, the angular-momentum potential f and the scale factors h1,h2,h3 are strictly positive at every grid point (so no later division by them is by zero), are invariant under mirror, Z is antisymmetric and Y symmetric under mirror.", "quantifier": "every NP, NM, a>0, L>0, every grid point", "why_tests_cant": "positivity at every point of every grid cannot be enumerated", "anchors": ["CADMium/psgrid/initialize.py:initialize", "CADMium/psgrid/operators.py:operators"]}
{"id": "C05", "title": "coulomb is the two-centre Coulomb potential", "statement": "coulomb(grid,Za,Zb) at a grid point equals -Za/rA - Zb/rB where rA, rB are the Euclidean distances of the point (Y,Z) to the nuclei at (0,-a) and (0,+a); both distances are positive at each grid point; it is linear in (Za,Zb), strictly negative for non-negative charges that are not both zero, and mirror exchanges the roles of Za and Zb.", "quantifier": "all charges, all a>0, L>0, all grid points", "why_tests_cant": "an identity of real functions at all points and charges", "anchors": ["CADMium/common/coulomb.py:coulomb", "CADMium/psgrid/initialize.py:initialize"]}
{"id": "C06", "title": "Newton-Cotes block weights integrate polynomials exactly", "statement": "The N-point block weights used by NC satisfy sum_j w[j]*q(j) = integral of q over [0,N-1] for every polynomial q of degree < N, and are symmetric, w[N-1-j]=w[j]; the edge weights together with the dropped end-point weight integrate [0,1/2] exactly for the same degrees.", "quantifier": "every N>=1, every polynomial of degree < N", "why_tests_cant": "infinitely many polynomials and block sizes", "anchors": ["CADMium/common/NC.py:NC"]}
{"id": "C07", "title": "NC composite weights integrate exactly functions that vanish at both ends", "statement": "NC(N,Nm) returns (N-1)*Nm+1 weights for the half-step points k+1/2 such that, for every polynomial q of degree < N with q(0)=0 and q((N-1)*Nm+1)=0, the weighted sum over the points equals the integral of q over [0,(N-1)*Nm+1]; the weights are symmetric under reversal.", "quantifier": "every N, every number of blocks Nm, every such polynomial", "why_tests_cant": "quantifies over all polynomials, block sizes and block counts; at Nm=1 the two edge corrections overlap", "anchors": ["CADMium/common/NC.py:NC"]}
{"id": "C08", "title": "integrate uses each point's own quadrature weight", "statement": "integrate(f) of a 1-d field equals 2*pi*hr*ha * sum over grid points (ia,ir) of wa[ia]*wr[ir]*w(ia,ir)*f(ia,ir), where wa, wr are the angular and radial Newton-Cotes weights: the flat weight array is laid out in the same order as the fields.", "quantifier": "every block counts NM=[NMa,NMr], every field", "why_tests_cant": "all tests use NMa==NMr, where row-major and column-major layouts coincide", "anchors": ["CADMium/psgrid/initialize.py:initialize (line 63)", "CADMium/psgrid/integrate.py:integrate"]}
{"id": "C09", "title": "integrate is linear and shape independent", "statement": "integrate is linear; mirror leaves the integral unchanged on equal-block grids; integrating a field stored as an (Nelem,1) column gives the same number as integrating it as a 1-d array; an (Nelem,p) array with p>=2 returns per-column integrals.", "quantifier": "every grid, every field and every shape", "why_tests_cant": "a broadcasting slip only shows for a particular shape; linearity is universally quantified", "anchors": ["CADMium/psgrid/integrate.py:integrate"]}
{"id": "C10", "title": "finite-difference coefficients satisfy the moment conditions", "statement": "finite_difference_coefficients(x,d) returns c with sum_j c[j]*x[j]^n/n! = 1 if n==d else 0 for every n < len(x), up to the code's own zeroing of entries below 1e-10; consequently the stencil differentiates every polynomial of degree < len(x) exactly. For a stencil symmetric about 0 the coefficients are antisymmetric for odd d and symmetric for even d.", "quantifier": "every stencil of distinct points, every derivative order d < len(x), every polynomial", "why_tests_cant": "all stencils and polynomials", "anchors": ["CADMium/common/finite_difference_coefficients.py:finite_difference_coefficients"]}
{"id": "C11", "title": "first-derivative matrices apply the stencil to the even/odd extension", "statement": "For a stencil -k..k, eDa1 @ u (oDa1 @ u) equals 1/ha times the stencil applied at every row to the extension of u by even (odd) reflection across 0 and pi; eDr1/oDr1 do the same across 0 and by zero beyond L.", "quantifier": "every k, every Na>=k, every Nr>=k, every vector u, every row including boundary rows", "why_tests_cant": "boundary-block index arithmetic for all sizes; the existing tests compare .all() booleans only", "anchors": ["CADMium/psgrid/finite_difference_1d.py:finite_difference_1d"]}
{"id": "C12", "title": "second-derivative matrices apply the stencil to the even/odd extension and are symmetric", "statement": "eDa2/oDa2/eDr2/oDr2 @ u equal the second-derivative stencil applied to the corresponding even/odd (zero beyond L) extension, divided by the squared step; each matrix equals its transpose.", "quantifier": "every stencil half-width, grid size and vector", "why_tests_cant": "boundary-block index arithmetic for all sizes", "anchors": ["CADMium/psgrid/finite_difference_2d.py:finite_difference_2d"]}
{"id": "C13", "title": "boundary blocks complete the radial stencil beyond L", "statement": "eDr1@u (resp. eDr2@u) plus bc1 (bc2) applied to outer values b on the last bcN rows equals the full stencil applied to u extended by the outer values at the bcN points beyond L; the same holds for elap and blap together on the two-dimensional grid.", "quantifier": "every grid size, stencil half-width, inner field and outer values", "why_tests_cant": "index arithmetic for all sizes and fields", "anchors": ["CADMium/psgrid/finite_difference_1d.py:finite_difference_1d", "CADMium/psgrid/finite_difference_2d.py:finite_difference_2d", "CADMium/psgrid/operators.py:operators"]}
{"id": "C14", "title": "the discrete Laplacian acts separably on the flattened field", "statement": "For a field f stored flat as ia+Na*ir, (elap@f)(ia,ir) = a*[ sinh(xr)*(sin(xa)*D2a f + cos(xa)*D1a f) + sin(xa)*(sinh(xr)*D2r f + cosh(xr)*D1r f) ] with the even difference operators (odd for olap), and elap and olap commute with mirror.", "quantifier": "every grid size, every field, every grid point", "why_tests_cant": "Kronecker-order mistakes are invisible on small symmetric grids", "anchors": ["CADMium/psgrid/operators.py:operators"]}
{"id": "C15", "title": "sigma returns the contracted density gradients", "statement": "sigma(n) for one column is |grad n|^2 >= 0 pointwise, is zero in the angular part for constants, and commutes with mirror; for two columns the three returned columns are |grad na|^2, grad na . grad nb and |grad nb|^2 at every grid point, and exchanging the spins reverses the columns. More than two columns raises ValueError.", "quantifier": "every grid, every density, every grid point", "why_tests_cant": "operator-precedence slips give plausible numbers; tests never use GGA with two spins", "anchors": ["CADMium/psgrid/sigma.py:sigma", "CADMium/psgrid/operators.py:operators"]}
{"id": "C16", "title": "v_hartree solves the discrete Poisson equation with multipole boundary values", "statement": "v_hartree(n) returns vh with elap@vh + blap@bVh (on the last bcN radial shells) = -4*pi*w*ntot, where bVh is the multipole sum of order 0..7 of the total density.", "quantifier": "every density, every grid whose Laplacian factorises", "why_tests_cant": "needs the linear-algebra identity for all right-hand sides; the row permutation of the LU factorisation is dropped by the code", "anchors": ["CADMium/hartree/hartree.py:v_hartree", "CADMium/psgrid/factorize_laplacian.py:factorize_laplacian"]}
{"id": "C17", "title": "Hartree potential depends linearly and only on the total density, and is mirror equivariant", "statement": "v_hartree of a two-column density has two equal columns and equals v_hartree of the column sum; it is linear in the density; v_hartree(spinflip n)=v_hartree(n); v_hartree(mirror n)=mirror(v_hartree(n)) on grids with mirror-symmetric weights; e_hartree is half of the potential and the Hartree energy is quadratic in the density.", "quantifier": "every density, every grid", "why_tests_cant": "universally quantified linear-algebra identities", "anchors": ["CADMium/hartree/hartree.py:v_hartree", "CADMium/hartree/hartree.py:e_hartree"]}
{"id": "C18", "title": "a solver's density integrates to its electron number", "statement": "With fractional occupation enabled, calc_density produces a density whose integral is exactly N for every real N>=0 that the available orbitals can hold, for each (m, pol); without it the integral is the largest multiple of the orbital capacity (1,2 or 4) not exceeding N. If there are too few orbitals an IndexError is raised, never a wrong count.", "quantifier": "every N, m, pol, every orbital set with non-zero norms, every grid", "why_tests_cant": "all real electron numbers and all orbitals", "anchors": ["CADMium/pssolver/calc_density.py:calc_density"]}
{"id": "C19", "title": "a solver's density is non-negative and independent of orbital scale and sign", "statement": "calc_density is pointwise non-negative when orbital norms are positive, and unchanged when any orbital is multiplied by a non-zero constant.", "quantifier": "every orbital set, every scaling", "why_tests_cant": "universally quantified", "anchors": ["CADMium/pssolver/calc_density.py:calc_density"]}
{"id": "C20", "title": "orbital energy sum and kinetic/potential split", "statement": "calc_energy sets eks to the occupation-weighted sum of eigenvalues with the same occupations calc_density uses, and Ts+Vs=eks; Vs is the integral of veff*n.", "quantifier": "every N, m, pol, eigenvalue list, potential", "why_tests_cant": "the >1e5 and NaN guards only fire on extreme inputs", "anchors": ["CADMium/pssolver/calc_energy.py:calc_energy"]}
{"id": "C21", "title": "get_homo returns the highest occupied eigenvalue", "statement": "get_homo returns the eigenvalue of the last orbital with non-zero occupation, i.e. for ascending eigenvalues the maximum over occupied orbitals; with no electrons it returns -1/eps; with too few eigenvalues it raises IndexError.", "quantifier": "every N, m, pol, eigenvalue list", "why_tests_cant": "boundary cases at every fractional and integer N", "anchors": ["CADMium/pssolver/get_homo.py:get_homo"]}
{"id": "C22", "title": "normalize_orbitals gives each orbital its capacity as norm", "statement": "After normalize_orbitals every orbital integrates (squared) to 2 (m=0) or 4 (m>0), halved for polarised solvers; the operation is idempotent and does not change the density.", "quantifier": "every orbital set with positive norms", "why_tests_cant": "universally quantified", "anchors": ["CADMium/pssolver/normalize_orbitals.py:normalize_orbitals"]}
{"id": "C23", "title": "iter_orbitals applies to each orbital its own correction only", "statement": "iter_orbitals subtracts from orbital j and eigenvalue j the solution of orbital j's own linear system when its residual exceeds the tolerance, and leaves converged orbitals unchanged; it never fails because an orbital is already converged.", "quantifier": "every residual pattern, every number of orbitals", "why_tests_cant": "depends on which subset of orbitals has converged", "anchors": ["CADMium/pssolver/iter_orbitals.py:iter_orbitals"]}
{"id": "C24", "title": "symmetrised orbitals have definite parity and give a symmetric density", "statement": "With sym=True every orbital returned by calc_orbitals is an eigenvector of mirror with eigenvalue +1 or -1, and the solver density built from them is mirror symmetric; nearly degenerate pairs (and only those) are replaced by one even and one odd combination.", "quantifier": "every orbital set, eigenvalue list and grid", "why_tests_cant": "every degeneracy pattern", "anchors": ["CADMium/pssolver/calc_orbitals.py:calc_orbitals"]}
{"id": "C25", "title": "density response ignores constant shifts and conserves charge", "statement": "For a non-singular bordered system, calc_response gives a response matrix that maps constant potentials to zero and whose result is orthogonal to the volume weights; its spin/angular degeneracy factor equals the one used by calc_density.", "quantifier": "every orbital, potential and grid", "why_tests_cant": "a statement about all perturbations; m>0 cases are not tested", "anchors": ["CADMium/pssolver/calc_response.py:calc_response"]}
{"id": "C26", "title": "the one-particle Hamiltonian has the right parity block and centrifugal term", "statement": "hamiltonian() uses the even Laplacian for even m and the odd one for odd m, H0 = -1/2*lap + m^2*w*f, and H0 (plus any mirror-symmetric potential) commutes with mirror.", "quantifier": "every m, grid, field", "why_tests_cant": "all m and fields", "anchors": ["CADMium/pssolver/pssolver.py:i_solver.hamiltonian"]}
{"id": "C27", "title": "kinetic energy density integrates to the kinetic energy", "statement": "calc_ked_WFI yields a density whose grid integral is the occupation-weighted sum of <phi|H0|phi>/<phi|phi>, using the same occupations as calc_density, including the fractional orbital.", "quantifier": "every N, m, pol, orbital set", "why_tests_cant": "fractional branch indexes different orbitals for norm and value", "anchors": ["CADMium/pssolver/calc_ked_WFI.py:calc_ked_WFI"]}
{"id": "C28", "title": "Pssolver builds one solver per (m, spin) with consistent m and pol", "statement": "Pssolver(grid,Nmo,N) returns an array of the shape of Nmo whose (i,j) solver has m=i, pol=number of columns, Nmo[i][j] orbitals and N[i][j] electrons; unknown options raise ValueError; N=-1 selects full occupation.", "quantifier": "every Nmo/N table", "why_tests_cant": "all tables", "anchors": ["CADMium/pssolver/pssolver.py:Pssolver", "CADMium/pssolver/pssolver.py:i_solver.__init__"]}
{"id": "C29", "title": "Kohn-Sham density does not depend on process scheduling", "statement": "Kohnsham.calc_density returns the same density whatever the order in which worker processes finish, and if a worker dies without reporting, the call raises KeyError instead of returning a density.", "quantifier": "every completion order of every number of workers, every subset of failed workers", "why_tests_cant": "schedules cannot be enumerated", "anchors": ["CADMium/kohnsham/kohnsham.py:Kohnsham.calc_density"]}
{"id": "C30", "title": "Kohn-Sham density has the requested number of electrons per spin and, with sym, is mirror symmetric", "statement": "Each spin column of calc_density's result integrates to the sum over m of the solvers' electron counts; with sym=True the result is mirror symmetric and the counts are unchanged (on equal-block grids); it is non-negative.", "quantifier": "every solver table, every orbital set, every grid", "why_tests_cant": "all configurations", "anchors": ["CADMium/kohnsham/kohnsham.py:Kohnsham.calc_density"]}
{"id": "C31", "title": "option keys are case-insensitive, unknown keys are rejected and accepted keys take effect", "statement": "For each of Kohnsham, Partition, Inverter, Pssolver, Kohnsham.scf and Partition.scf: a key not among the documented options (after lower-casing) raises ValueError, and an accepted key sets the option to the supplied value whatever its letter case.", "quantifier": "every option dictionary", "why_tests_cant": "all dictionaries, all spellings", "anchors": ["CADMium/kohnsham/kohnsham.py:Kohnsham.__init__", "CADMium/kohnsham/scf.py:scf", "CADMium/partition/scf.py:scf", "CADMium/inverter/inverter.py:Inverter.__init__", "CADMium/pssolver/pssolver.py:i_solver.__init__"]}
{"id": "C32", "title": "every SCF iteration conserves electron number and non-negativity", "statement": "Throughout Kohnsham.scf and Partition.scf, after any number of iterations with mixing factor alpha in [0,1], each spin density integrates to the same electron number as the initial density and stays non-negative.", "quantifier": "every number of iterations, every sequence of output densities, every alpha in [0,1]", "why_tests_cant": "an invariant over unbounded histories", "anchors": ["CADMium/kohnsham/scf.py:scf", "CADMium/partition/scf.py:scf"]}
{"id": "C33", "title": "Kohnsham.scf terminates within its iteration budget and stops only when converged or out of budget", "statement": "Kohnsham.scf performs at most maxiter iterations; if it stops earlier the last energy and density changes are both at most e_tol; auto_tol is honoured.", "quantifier": "every history of energy/density changes including NaN, every tolerance and budget", "why_tests_cant": "all histories, including NaN values and the off-by-one at the budget", "anchors": ["CADMium/kohnsham/scf.py:scf"]}
{"id": "C34", "title": "Kohn-Sham total energy is the sum of its components and consistent with the eigenvalue sum", "statement": "After energy(): E = Ts+Enuc+Eh+Ex+Ec + Za*Zb/(2a) for 'dft' and Ts+Enuc+Za*Zb/(2a) for 'ni'; Ts is the sum over solvers; Enuc and Vext are the integrals of n with vnuc and vext; Eh=1/2 of the integral of ntot*vh.", "quantifier": "every solver table, density and potential", "why_tests_cant": "all densities", "anchors": ["CADMium/kohnsham/kohnsham.py:Kohnsham.energy"]}
{"id": "C35", "title": "every solver receives the effective potential of its own spin", "statement": "After set_effective_potential every solver (i,j) holds column j of vnuc+vext+vhxc; set_veff_external(veff) gives every solver (i,j) column j of the argument; in scf with spinflipsym the solvers receive the symmetrised potential.", "quantifier": "every solver table and potential", "why_tests_cant": "all tables and potentials", "anchors": ["CADMium/kohnsham/kohnsham.py:Kohnsham.set_effective_potential", "CADMium/kohnsham/kohnsham.py:Kohnsham.set_veff_external", "CADMium/kohnsham/scf.py:scf"]}
{"id": "C36", "title": "chemical potential is the highest HOMO of all solvers", "statement": "calc_chempot sets u to a solver's HOMO that is >= every solver's HOMO.", "quantifier": "every non-empty solver table", "why_tests_cant": "all tables", "anchors": ["CADMium/kohnsham/kohnsham.py:Kohnsham.calc_chempot"]}
{"id": "C37", "title": "ensemble weights of each fragment sum to one", "statement": "After construction the scale factors of fragment A's components sum to 1 (to 1/2 with ens_spin_sym, where each component also stands for its spin-flipped twin), likewise for B, for every mixing ratio; every pair (nu_a,nu_b) in [0,1] is accepted.", "quantifier": "every nu_a, nu_b, ens_spin_sym", "why_tests_cant": "all mixing ratios, including exactly one of them equal to 1", "anchors": ["CADMium/partition/partition.py:Partition.__init__", "CADMium/partition/partition.py:Partition.calc_scale_factors"]}
{"id": "C38", "title": "the promolecular density has the ensemble-averaged electron number", "statement": "calc_protomolecule sets nf=na_frac+nb_frac, each na_frac integrates to the scale-weighted electron number of its components (summed over spins; twice with ens_spin_sym), and with ens_spin_sym nf is spin-flip symmetric.", "quantifier": "every density, scale, ensemble setting", "why_tests_cant": "all densities", "anchors": ["CADMium/partition/partition.py:Partition.calc_protomolecule"]}
{"id": "C39", "title": "Q functions are a partition of unity", "statement": "calc_Q sets finite Q functions; where nf is non-zero they sum to 1 over fragments (with ens_spin_sym: sum plus its spin flip is 1), where nf is zero they are all 0; for non-negative densities each lies in [0,1].", "quantifier": "every density set including zeros, every scale, every grid point", "why_tests_cant": "division by zero, infinities and NaN at arbitrary points", "anchors": ["CADMium/partition/partition.py:Partition.calc_Q"]}
{"id": "C40", "title": "the partition potential is the Q-average of the fragment partition potentials", "statement": "partition_potential ('component') returns vp = sum_i Q_i*vp_i with vp_i = vp_pot_i+vp_kin_i+vp_hxc_i, equals the sum of its returned components vp_pot+vp_kin+vp_hxc, and where nf is non-zero and hxc_part_type is exact equals the molecular potential minus the Q-average of the fragment potentials; it is mirror symmetric with ab_sym and spin-flip symmetric with ens_spin_sym.", "quantifier": "every set of potentials, densities and options", "why_tests_cant": "identities over all fields", "anchors": ["CADMium/partition/partition_potential.py:partition_potential", "CADMium/partition/vp_nuclear.py:vp_nuclear", "CADMium/partition/vp_hxc.py:vp_hxc", "CADMium/partition/vp_kinetic.py:vp_kinetic"]}
{"id": "C41", "title": "partition total energy equals the molecular functional at the promolecular density", "statement": "After energy() with hxc_part_type 'exact', interaction 'dft' and not isolated, E = Tsf+Ep_kin + integral(nf*(va+vb)) + Eh[nf]+Ex[nf]+Ec[nf] + Za*Zb/(2a); for kinetic_part_type 'inversion' Tsf+Ep_kin is the molecular kinetic energy.", "quantifier": "every density, ensemble, symmetry setting", "why_tests_cant": "telescoping identity over all inputs; the ensemble branch for fragment B is never tested", "anchors": ["CADMium/partition/energy.py:energy", "CADMium/partition/ep_nuclear.py:ep_nuclear", "CADMium/partition/ep_hxc.py:ep_hxc", "CADMium/partition/ep_kinetic.py:ep_kinetic", "CADMium/partition/partition_energy.py:partition_energy"]}
{"id": "C42", "title": "fragment energies are ensemble averages", "statement": "energy() sets Ea = sum over A's components of scale*E (doubled with ens_spin_sym), and Eb likewise over B's components (equal to Ea with ab_sym); Ef=Ea+Eb.", "quantifier": "every ensemble", "why_tests_cant": "the ensemble without ab_sym is never tested", "anchors": ["CADMium/partition/energy.py:energy"]}
{"id": "C43", "title": "mirrorAB makes B the mirror image of A", "statement": "After mirrorAB, fragment B's density, Q, effective and external potential and component potentials are the mirror images of A's, its energies and chemical potential equal A's; calling it twice changes nothing more; the promolecular density then is mirror symmetric when both scales agree.", "quantifier": "every fragment state", "why_tests_cant": "all fragment states", "anchors": ["CADMium/partition/partition.py:Partition.mirrorAB", "CADMium/partition/partition.py:Partition.calc_protomolecule"]}
{"id": "C44", "title": "Partition.scf terminates within its budget and reports non-convergence", "statement": "Partition.scf performs at most max_iter iterations, stops early only if the last change is at most e_tol, warns exactly when the budget is exhausted without convergence, and honours auto_tol.", "quantifier": "every history of changes, tolerance and budget", "why_tests_cant": "all histories", "anchors": ["CADMium/partition/scf.py:scf"]}
{"id": "C45", "title": "the reference chemical potential of the inversion is the largest fragment HOMO", "statement": "vp_kinetic('inversion') references fragment kinetic potentials to u = the maximum of all fragment solver HOMOs.", "quantifier": "every HOMO table", "why_tests_cant": "all HOMO tables", "anchors": ["CADMium/partition/vp_kinetic.py:vp_kinetic"]}
{"id": "C46", "title": "every accepted partition option value leads to a calculation", "statement": "For every vp_calc_type, hxc_part_type and kinetic_part_type accepted by the validators, a non-isolated SCF iteration evaluates the partition potential and energy without raising because of the option value.", "quantifier": "the full product of accepted option values, ensemble and interaction settings", "why_tests_cant": "the full product of options is not tested", "anchors": ["CADMium/partition/partition.py:PartitionOptions", "CADMium/partition/vp_hxc.py:vp_hxc", "CADMium/partition/ep_hxc.py:ep_hxc", "CADMium/partition/ep_kinetic.py:ep_kinetic", "CADMium/partition/partition_potential.py:partition_potential"]}
{"id": "C47", "title": "von Weizsaecker non-additive kinetic energy is a number", "statement": "ep_kinetic('vonweiz') sets Ep_kin to the scalar Tvw[nf] minus the scale-weighted sum of Tvw of the fragments, with Tvw the same functional in both terms.", "quantifier": "every density", "why_tests_cant": "all densities", "anchors": ["CADMium/partition/ep_kinetic.py:ep_kinetic"]}
{"id": "C48", "title": "partition energies are evaluated at the current promolecular density", "statement": "After each Partition.scf iteration, Ep_h, Ep_x and Ep_c are the molecular Hartree, exchange and correlation energies of the current nf minus the fragment sums.", "quantifier": "every iteration of every history", "why_tests_cant": "staleness by one iteration shows only before convergence", "anchors": ["CADMium/partition/scf.py:scf", "CADMium/partition/vp_hxc.py:vp_hxc", "CADMium/partition/ep_hxc.py:ep_hxc"]}
{"id": "C49", "title": "freezing a fragment keeps it unchanged", "statement": "With freeze_a the external potential of fragment A is the same after any number of iterations, and its density does not change.", "quantifier": "every history", "why_tests_cant": "all histories", "anchors": ["CADMium/partition/scf.py:scf"]}
{"id": "C50", "title": "isolated calculations have no partition terms", "statement": "With isolated set, fragments get zero partition potential, Ep and its components are 0 and E = Ef + Za*Zb/(2a).", "quantifier": "every state", "why_tests_cant": "all states", "anchors": ["CADMium/partition/scf.py:scf", "CADMium/partition/partition_energy.py:partition_energy", "CADMium/partition/energy.py:energy"]}
{"id": "C51", "title": "Hartree energy density of fragments is Q-averaged with the mirror image added once", "statement": "ep_hxc subtracts from the molecular Hartree energy density the Q-weighted sum over all components, adding the mirror image of A's sum exactly once with ab_sym.", "quantifier": "every ensemble", "why_tests_cant": "ensembles with ab_sym are needed", "anchors": ["CADMium/partition/ep_hxc.py:ep_hxc"]}
{"id": "C52", "title": "overlap measure is bounded and symmetric in the fragments", "statement": "vp_overlap sets S = integral sqrt(na*nb), invariant under exchanging the fragments, 0<=S<=sqrt(Na*Nb) for non-negative weights, and F=erf(2S) increases with S and lies in [0,1); dSdn is finite everywhere.", "quantifier": "every pair of fragment densities including zeros", "why_tests_cant": "Cauchy-Schwarz over all densities", "anchors": ["CADMium/partition/vp_overlap.py:vp_overlap"]}
{"id": "C53", "title": "orbital-inversion unknown vector round-trips and is gauge invariant", "statement": "The unknown vector built from (phi, eigenvalues, potential) decodes to phi, eigenvalues minus the last eigenvalue and potential minus the last eigenvalue; adding a constant to all eigenvalues and the potential gives the same vector.", "quantifier": "every Nelem, Nmo, phi, eigenvalues, potential", "why_tests_cant": "slice arithmetic over all sizes", "anchors": ["CADMium/inverter/orbitalinvert.py:orbitalinvert", "CADMium/inverter/orbitalinvert.py:kmatrix"]}
{"id": "C54", "title": "normalize sets each orbital's weighted norm to its occupation and nothing else", "statement": "normalize(x,...) returns x with every orbital's weighted norm equal to its occupation and the eigenvalue and potential parts unchanged; it is idempotent.", "quantifier": "every vector with positive norms", "why_tests_cant": "universally quantified", "anchors": ["CADMium/inverter/orbitalinvert.py:normalize"]}
{"id": "C55", "title": "kmatrix returns the exact Jacobian of its residual", "statement": "For every unknown vector X and direction D, eqn(X+D) - eqn(X) - jac(X)@D is the purely quadratic remainder independent of X; jac is symmetric when the Hamiltonian block is.", "quantifier": "every X, D, Nelem, Nmo", "why_tests_cant": "an identity in all unknowns; finite-difference checks sample", "anchors": ["CADMium/inverter/orbitalinvert.py:kmatrix"]}
{"id": "C56", "title": "orbitalinvert terminates and its flag reports convergence", "statement": "The inversion loop performs at most max(1,max_iter_invert) iterations and returns flag True exactly when the last residual is at most tol_invert.", "quantifier": "every residual history including NaN", "why_tests_cant": "all histories including NaN residuals", "anchors": ["CADMium/inverter/orbitalinvert.py:orbitalinvert"]}
{"id": "C57", "title": "orbitalinvert accepts every electron configuration its solvers accept", "statement": "For every table of solvers (several m levels, odd or fractional electron numbers) the occupation set-up of orbitalinvert succeeds and assigns each orbital the occupation calc_density uses.", "quantifier": "every solver table", "why_tests_cant": "all tables", "anchors": ["CADMium/inverter/orbitalinvert.py:orbitalinvert"]}
{"id": "C58", "title": "ab_symmetrize returns parity-pure orbitals and a symmetric potential", "statement": "ab_symmetrize(X) returns a vector whose orbitals are each even or odd under mirror with unit norm and whose potential block is mirror symmetric, leaving the eigenvalue block unchanged.", "quantifier": "every X with non-vanishing symmetrised orbitals", "why_tests_cant": "all vectors", "anchors": ["CADMium/inverter/orbitalinvert.py:ab_symmetrize"]}
{"id": "C59", "title": "every accepted inversion method runs", "statement": "For each invert_type accepted by the validator, invert() dispatches to an implementation; inversion of a two-spin density stores one chemical potential per spin.", "quantifier": "every accepted invert_type, pol in {1,2}", "why_tests_cant": "finite but untested table plus all data", "anchors": ["CADMium/inverter/inverter.py:Inverter.invert", "CADMium/inverter/linresponse.py:linresponse", "CADMium/inverter/simple.py:simple"]}
{"id": "C60", "title": "inverter kinetic energy and kinetic energy density sum over all solvers", "statement": "get_Ts is the sum of Ts over all (m,spin) solvers (twice the first spin with ens_spin_sym); get_ts_WFI's spin column is the sum over m of the solvers' kinetic energy densities.", "quantifier": "every solver table", "why_tests_cant": "needs several m levels", "anchors": ["CADMium/inverter/get_Ts.py:get_Ts", "CADMium/inverter/get_ts_WFI.py:get_ts_WFI"]}
{"id": "C61", "title": "the Wu-Yang residual and Jacobian are consistent", "statement": "Ws returns B(n-n0) with an extra component pinning the potential, and Jacobian is B times the sum of the solvers' responses with the derivative of that component in the last row.", "quantifier": "every solver table", "why_tests_cant": "needs several m levels", "anchors": ["CADMium/inverter/inverter.py:Inverter.Ws", "CADMium/inverter/inverter.py:Inverter.Jacobian"]}
{"id": "C62", "title": "GGA potential is spin-equivariant and reduces to the unpolarised formula", "statement": "get_xc with a spin-symmetric functional satisfies get_xc(spinflip n) = (same energy, spinflip of the potential); the energy is the integral of epsilon times the density.", "quantifier": "every density, every spin-symmetric functional", "why_tests_cant": "all densities and functionals", "anchors": ["CADMium/libxc/libxc.py:Libxc.get_xc"]}
{"id": "C63", "title": "plotter returns the field on the full plane", "statement": "plotter(f) returns arrays with Na+2 rows and 2*Nr columns in which the right half holds the field, the left half its reflection times sym, and the first and last rows close the surface; the returned coordinates satisfy the same reflection.", "quantifier": "every grid and field", "why_tests_cant": "all sizes", "anchors": ["CADMium/psgrid/plotter.py:plotter"]}
{"id": "C64", "title": "reduced_grad returns the reduced density gradient", "statement": "Psgrid.reduced_grad(n) returns sigma^(1/2)/(2(3 pi^2)^(1/3) n^(4/3)) per spin.", "quantifier": "every density with one or two columns", "why_tests_cant": "all densities", "anchors": ["CADMium/psgrid/reduced_grad.py:reduced_grad", "CADMium/psgrid/psgrid.py:Psgrid.reduced_grad"]}
{"id": "C65", "title": "a zero of the kmatrix residual is a solution of the inversion problem", "statement": "kmatrix's residual vanishes at X exactly when every orbital satisfies its Kohn-Sham equation with the stored potential and eigenvalue, the summed squared orbitals equal the target density at every point, and the norm condition holds.", "quantifier": "every X, target density, occupation vector, non-zero weights", "why_tests_cant": "a solution set over all vectors", "anchors": ["CADMium/inverter/orbitalinvert.py:kmatrix"]}
{"id": "C66", "title": "the caller's initial guess reaches the inversion unscrambled", "statement": "The initial vector built from (phi0, e0, vs0) holds guess orbital i as orbital i, and its eigenvalues and potential are measured from the same reference energy.", "quantifier": "every guess, number of guess orbitals and grid", "why_tests_cant": "all shapes of guesses; the flattening order only matters for two or more guess orbitals", "anchors": ["CADMium/inverter/orbitalinvert.py:orbitalinvert", "CADMium/partition/vp_kinetic.py:vp_kinetic"]}
{"id": "C67", "title": "a converged orbitalinvert reproduces the target density", "statement": "When orbitalinvert returns with flag True, the solver's density agrees with the target up to 2*tol/weight at every point, the Kohn-Sham equations hold up to tol, the orbitals are normalised to 2, the last eigenvalue and the stored chemical potential are 0, and the stored potential is the solver's.", "quantifier": "every fully occupied m=0 solver, every grid, target, start vector and linear-solver/eigensolver answers", "why_tests_cant": "covers every answer of the linear solver and eigensolver", "anchors": ["CADMium/inverter/orbitalinvert.py:orbitalinvert"]}
{"id": "C68", "title": "the kinetic potential is the chemical potential minus the Kohn-Sham potential", "statement": "After an inversion get_vt() returns, for every spin and every grid point, the spin's chemical potential minus the spin's potential at that point.", "quantifier": "every grid, potential and chemical potential, after Wu-Yang or orbital inversion", "why_tests_cant": "the array of chemical potentials is indexed by grid point after orbitalinvert; tests with zero chemical potential cannot see it", "anchors": ["CADMium/inverter/inverter.py:Inverter.get_vt", "CADMium/inverter/orbitalinvert.py:orbitalinvert"]}
{"id": "C69", "title": "a successful simple inversion reproduces the target density", "statement": "When simple() returns True, the solver's density agrees with the target within the relative tolerance, us is the highest eigenvalue and Ts is the kinetic energy of the solver's orbitals.", "quantifier": "every target density without zeros, start potential, tolerance, iteration limit and eigensolver answers", "why_tests_cant": "covers runs that stop at the iteration limit and all eigensolver answers", "anchors": ["CADMium/inverter/simple.py:simple"]}
{"id": "C70", "title": "equal spins give the unpolarised exchange-correlation result", "statement": "For a polarised functional that restricts to an unpolarised one at equal spins, get_xc of a density split evenly between two spin columns returns the energy, energy density and (in each column) the potential that get_xc returns for the one-column density.", "quantifier": "every density, LDA and GGA functional pair, gradient and divergence operators", "why_tests_cant": "all densities and functionals; needs the chain rule between polarised and unpolarised gradient derivatives", "anchors": ["CADMium/libxc/libxc.py:Libxc.get_xc", "CADMium/psgrid/sigma.py:sigma"]}
{"id": "C71", "title": "axis_plot returns every axis point exactly once", "statement": "axis_plot(f) returns the points of the internuclear segment and of the outer axis on both sides, each exactly once; with a point its mirror image is returned.", "quantifier": "every grid with at least two rows and columns", "why_tests_cant": "all grid sizes; the multiplicity of every grid point", "anchors": ["CADMium/psgrid/psgrid.py:Psgrid.axis_plot"]}
{"id": "C72", "title": "scale factors, volume element and angular potential belong to the coordinates", "statement": "At every grid point the stored Z and Y are the prolate spheroidal height and distance from the axis, h1 = h2 and h3 are the lengths of the three mutually orthogonal coordinate tangents, w is the volume element spanned by them, and f is the centrifugal potential 1/(2 Y^2).", "quantifier": "every grid size, every a > 0 and L > 0, every point", "why_tests_cant": "all grid geometries; a wrong factor in w, h or f rescales every energy and a test with tuned tolerances can pass", "anchors": ["CADMium/psgrid/initialize.py:initialize", "CADMium/psgrid/operators.py:operators"]}
{"id": "C73", "title": "elap and olap are the volume element times the Laplacian", "statement": "For every axially symmetric twice differentiable function sampled on the grid, elap (and olap for odd continuation) returns w times its Laplacian, up to exactly the errors of the four one-dimensional difference quotients combined with the same coefficients.", "quantifier": "every twice differentiable function, grid size, stencil half-width, a > 0, L > 0", "why_tests_cant": "all functions; needs the change of variables from cylindrical to prolate spheroidal coordinates", "anchors": ["CADMium/psgrid/operators.py:operators", "CADMium/psgrid/initialize.py:initialize"]}
{"id": "C74", "title": "difference quotients converge to the derivative", "statement": "With the coefficients returned by finite_difference_coefficients for N distinct locations and derivative order d < N, the difference quotient of every N-1 times continuously differentiable function differs from its d-th derivative by o(h^(N-1-d)) as the step h tends to 0; in particular it converges. (Nonzero exact coefficients must not be below the 1e-10 threshold the code zeroes.)", "quantifier": "every stencil of distinct real locations, derivative order, smooth function and point", "why_tests_cant": "a limit over all step sizes and all functions", "anchors": ["CADMium/common/finite_difference_coefficients.py:finite_difference_coefficients"]}
{"id": "C75", "title": "eigenvalue lists hold every solver's eigenvalues in order", "statement": "After Kohnsham.energy(), E.evals is the concatenation of the eigenvalues of all solvers, angular momenta outside, spins inside, each solver's in the order it found them; Partition.energy() stores in E.evals_a and E.evals_b the lists of the components of each fragment one after the other (both from fragment A when ab_sym).", "quantifier": "every number of angular momenta, spins, orbitals and components", "why_tests_cant": "list concatenation over every solver layout", "anchors": ["CADMium/kohnsham/kohnsham.py:Kohnsham.energy", "CADMium/partition/energy.py:energy"]}
{"id": "C76", "title": "two-orbital functional: orbitals and energy", "statement": "For kinetic_part_type 'twoorbital', the orbitals formed by ep_kinetic add up to the promolecular density, each holds half of the electrons, and the molecular kinetic energy is the sum of the orbitals' kinetic energies, unchanged when the fragments are exchanged; the orbitals exist for all non-negative fragment densities.", "quantifier": "every grid and pair of fragment densities", "why_tests_cant": "all densities, including equal ones for which the code divides 0 by 0", "anchors": ["CADMium/partition/ep_kinetic.py:ep_kinetic"]}
{"id": "C77", "title": "fragment kinetic potentials are functional derivatives of the fragment kinetic energies", "statement": "For kinetic_part_type 'vonweiz' and 'twoorbital' the potential vt that vp_kinetic stores with a fragment is the functional derivative of the von Weizsaecker kinetic energy of the fragment density, and integrates with that density to this energy.", "quantifier": "every grid with symmetric kinetic matrix, density and variation", "why_tests_cant": "derivative in every direction at every density", "anchors": ["CADMium/partition/vp_kinetic.py:vp_kinetic", "CADMium/partition/ep_kinetic.py:ep_kinetic"]}
{"id": "C78", "title": "two-orbital molecular potentials are functional derivatives", "statement": "For kinetic_part_type 'twoorbital' the two columns of V.vt are the functional derivatives of the two-orbital kinetic energy with respect to the densities of fragment A and fragment B.", "quantifier": "every grid with symmetric kinetic matrix, pair of densities and variation", "why_tests_cant": "derivative in every direction at every pair of densities; finite differences only sample a few", "anchors": ["CADMium/partition/vp_kinetic.py:vp_kinetic", "CADMium/partition/ep_kinetic.py:ep_kinetic"]}
{"id": "C79", "title": "Hartree potential approximates the Coulomb potential at the boundary with a proved bound", "statement": "The boundary values v_hartree builds from Legendre multipoles 0..7 differ from the exact Coulomb potential of the ring charges represented by the density by at most (R/rho)^8/(rho-R) times the sum of the absolute charges, where R bounds the distance of the charges from the centre and rho the distance of the boundary point; v_hartree solves the discrete Poisson equation with these boundary values.", "quantifier": "every grid, density and boundary point outside the charges", "why_tests_cant": "an error bound for all densities, against an integral that has no closed form", "anchors": ["CADMium/hartree/hartree.py:v_hartree"]}
{"id": "C80", "title": "the divergence is minus the adjoint of the gradient", "statement": "For the operators of an initialised grid and all functions f and u, the volume-weighted sum of f*(diva@u) is minus that of (grada@f)*u, and likewise for divr and gradr.", "quantifier": "every grid, stencil width, and pair of functions", "why_tests_cant": "an identity between all pairs of grid functions on all grids", "anchors": ["CADMium/psgrid/operators.py:operators"]}
{"id": "C81", "title": "gradient and divergence operators converge to the gradient and divergence", "statement": "Applied to the values of a smooth function, grada and gradr return the components of its gradient along the unit coordinate vectors up to the error of the one-dimensional difference quotient divided by the scale factor; diva+divr applied to the components of a smooth vector field returns its divergence up to such errors.", "quantifier": "every smooth field, grid and grid point", "why_tests_cant": "all smooth fields, with the error identified exactly", "anchors": ["CADMium/psgrid/operators.py:operators"]}
{"id": "C82", "title": "the exchange-correlation potential is the functional derivative of the energy", "statement": "For every functional whose zk, vrho and vsigma are the energy per electron and the partial derivatives of the energy per volume, the potential returned by get_xc is the functional derivative of the energy returned by get_xc, for LDA and GGA, one and two spin columns.", "quantifier": "every functional, grid, positive density and variation", "why_tests_cant": "derivative in every direction for every functional", "anchors": ["CADMium/libxc/libxc.py:get_xc"]}
{"id": "C83", "title": "nuclear potentials of the molecule and the fragments", "statement": "Every spin column of vnuc is -Za/rA-Zb/rB at every grid point; with sym it is the potential of two nuclei sharing the charge equally, unchanged for equal nuclei. After calc_nuclear_potential and vp_nuclear the molecule's external potential is that of both nuclei and the nuclear part of each fragment's partition potential is the potential of the other nucleus.", "quantifier": "every grid, charges, polarisation 1 or 2, ensemble or not", "why_tests_cant": "all charges and grids, exact identity", "anchors": ["CADMium/kohnsham/kohnsham.py:Kohnsham.calc_nuclear_potential", "CADMium/partition/partition.py:Partition.calc_nuclear_potential", "CADMium/partition/vp_nuclear.py:vp_nuclear"]}
{"id": "C84", "title": "the Hartree-exchange-correlation potential is the derivative of the interaction energy", "statement": "calc_hxc_potential stores vh+vx+vc of the current density (zero for 'ni'; with sym the mirror symmetric mean) and changes neither density nor external potential; in scf every solver receives vnuc+vext+vh+vx+vc of its spin; the stored potential is the functional derivative of E.Eh+E.Ex+E.Ec as reported by energy(), whenever vx, vc are the derivatives of Ex, Ec and the Hartree operator is linear and symmetric; for an asymmetric Hartree operator the difference is half its asymmetry.", "quantifier": "every density, direction, functional, solver table", "why_tests_cant": "a derivative in every direction for every functional", "anchors": ["CADMium/kohnsham/kohnsham.py:Kohnsham.calc_hxc_potential", "CADMium/kohnsham/kohnsham.py:Kohnsham.energy"]}
{"id": "C85", "title": "constructors of Kohnsham and Partition", "statement": "Constructing a Kohnsham object with documented options gives an object with the given charges, the nuclear potential of these charges, one solver per angular momentum and spin with the given occupations and the requested flags, and no results. Constructing a Partition gives fragments with one nucleus each, the partition's options handed on to every fragment, and the ensemble weights. Unknown options, ab_sym with different charges and tables of different shapes are rejected; every accepted option takes effect.", "quantifier": "every option dictionary, grid, charges, tables and ratios", "why_tests_cant": "all dictionaries and spellings, all grids and tables", "anchors": ["CADMium/kohnsham/kohnsham.py:Kohnsham.__init__", "CADMium/partition/partition.py:Partition.__init__", "CADMium/partition/scf.py:scf"]}
{"id": "C86", "title": "convergence means self-consistency", "statement": "If Kohnsham.scf stops before its budget is used up, the final density differs from the density of the orbitals in its own potential by at most e_tol/alpha in the integral norm, for every spin, and the energy changed by at most e_tol; if Partition.scf stops early, promolecular density and energy changed by at most e_tol in the last pass.", "quantifier": "every grid with non-negative weights, functional, worker result, tolerance and budget", "why_tests_cant": "all histories of the loop; a norm inequality for all densities", "anchors": ["CADMium/kohnsham/scf.py:scf", "CADMium/partition/scf.py:scf", "CADMium/psgrid/integrate.py:integrate"]}
{"id": "C87", "title": "overlap potential is a functional derivative", "statement": "V.dFdn of every component, as set by vp_overlap, is the functional derivative of E.F = erf(2S) with respect to the density of this component.", "quantifier": "every grid, every component of either fragment, ensemble or not, every direction", "why_tests_cant": "derivative in every direction at every density", "anchors": ["CADMium/partition/vp_overlap.py:vp_overlap", "CADMium/partition/partition.py:Partition.calc_protomolecule"]}
{"id": "C88", "title": "partition potential is the derivative of the partition energy", "statement": "After calc_protomolecule, calc_Q and partition_potential the V.vp of every component is the functional derivative of the partition energy E.Ep that energy() reports: if the component densities change along lines, dEp/dt is the sum over the components of scale times the integral of V.vp with the change of the density; if they share a change of the total density in proportion to their Q, dEp/dt is the integral of the partition's V.vp with this change.", "quantifier": "every grid, densities and directions of change, functionals with the matching derivatives, hxc_part_type exact/hartree/overlap_xc, kinetic part none or a functional, with ab_sym and ens_spin_sym", "why_tests_cant": "derivative in every direction at every set of densities", "anchors": ["CADMium/partition/partition_potential.py:partition_potential", "CADMium/partition/vp_hxc.py:vp_hxc", "CADMium/partition/vp_kinetic.py:vp_kinetic", "CADMium/partition/vp_nuclear.py:vp_nuclear", "CADMium/partition/energy.py:energy", "CADMium/partition/ep_hxc.py:ep_hxc"]}
{"id": "C89", "title": "correlated Hartree energy of an ensemble and the potential of 'overlap_hxc'", "statement": "EnsCorHar of an ensemble pairs KSa with KSB and KSA with KSb: V.vhcor of a component is the Hartree potential of its partner, E.Ehcor half the integral of its density with it, the total the sum weighted with the scales.  With hxc_part_type 'overlap_hxc' the V.vp of the components is the functional derivative of E.Ep = ... + F (Ep_h + Ep_x + Ep_c) + (1 - F) Ehcor.", "quantifier": "every ensemble, grid, densities and directions of change, self-adjoint Hartree operator and functionals with the matching derivatives", "why_tests_cant": "derivative in every direction at every set of densities; all pairings of four components", "anchors": ["CADMium/partition/EnsCorHar.py:EnsCorHar", "CADMium/partition/vp_hxc.py:vp_hxc", "CADMium/partition/ep_hxc.py:ep_hxc", "CADMium/partition/vp_overlap.py:vp_overlap"]}
{"id": "C90", "title": "every pass of Partition.scf keeps electron numbers, sign and the partition of unity", "statement": "After Partition.scf, however many passes it makes, every component of both fragments has a non-negative density with the electron number asked of its solvers in each spin column; nf is non-negative, contains the weighted electron numbers of the components and (with ab_sym) is mirror symmetric; the Q functions lie between 0 and 1 and sum to one wherever nf is not zero.", "quantifier": "every iteration budget, tolerance, mixing in [0,1], functionals, partition potential (also changing from pass to pass), adequate eigenvectors, ensembles, ens_spin_sym, ab_sym, frozen or not", "why_tests_cant": "invariant of all passes of a nonlinear iteration with arbitrary functionals and potentials", "anchors": ["CADMium/partition/scf.py:scf", "CADMium/partition/partition.py:Partition.mirrorAB", "CADMium/partition/partition.py:Partition.calc_protomolecule", "CADMium/partition/partition.py:Partition.calc_Q"]}
{"id": "C91", "title": "the potential in which the fragments move is the embedding potential of the chosen method", "statement": "In a pass of Partition.scf (interacting, not isolated, hxc part 'exact', kinetic part absent or a functional with potential vk): with calc_type 'sdft' every calculated component gets, as effective potential and in every solver, the Kohn-Sham potential of the molecule at the promolecular density plus vk[nf] - vk[n of the component]. With 'pdft' every component gets its own Kohn-Sham potential plus one partition potential common to all, and where the Q functions add up to 1 the Q-average of these effective potentials is the Kohn-Sham potential of the molecule at the promolecular density plus the Q-average of vk[nf] - vk[n].", "quantifier": "every Hartree, exchange, correlation and kinetic functional, nuclear potentials, densities, ensembles, eigenvectors, grids and spin columns; components that are not frozen and have no option sym; for 'pdft' without ab_sym and ens_spin_sym", "why_tests_cant": "identity between potentials assembled in five modules, for arbitrary functionals and densities; a test sees one converged molecule", "anchors": ["CADMium/partition/scf.py:scf", "CADMium/partition/partition_potential.py:partition_potential", "CADMium/partition/vp_nuclear.py:vp_nuclear", "CADMium/partition/vp_kinetic.py:vp_kinetic", "CADMium/partition/vp_hxc.py:vp_hxc", "CADMium/kohnsham/kohnsham.py:Kohnsham.set_effective_potential"]}
{"id": "C92", "title": "the initial guess of the inversion is a Ritz solution in the space of the fragment orbitals", "statement": "Partition.initialguessinvert(ispin) returns for any two fragments with orbitals. The potential v0 is the Q-weighted sum of the fragments' effective potentials, so it is V if all fragments move in V and the Q functions add up to one. For every m the guess has one orbital per fragment orbital (with ab_sym: per orbital of A and its mirror image), in the space they span, in the order of their energies; each contains the electrons of a full shell (2 for m = 0, 4 otherwise; half with ens_spin_sym) and solves the Schroedinger equation with v0 projected on that space; orbitals of different energies are orthogonal.", "quantifier": "every grid, fragment orbitals, effective potentials, Q functions, ensembles, numbers of solvers, ab_sym, ens_spin_sym, every answer of scipy.linalg.eig which solves the generalized eigenproblem", "why_tests_cant": "property of all orbitals and potentials; the tests call it on one symmetric molecule and ignore the values", "anchors": ["CADMium/partition/initialguessinvert.py:initialguessinvert"]}
{"id": "C93", "title": "closed-shell systems: one or two spin columns", "statement": "A closed-shell system computed by Kohnsham with pol=1 and with pol=2 (half of the electrons in each spin) gives the same result: the constructed objects correspond, every pass of scf() keeps them corresponding (same potentials for both spins, half of the density in each spin, same eigenvalues, chemical potential and energies), and both calculations stop after the same number of passes with the same total energy and density.", "quantifier": "every grid, charges, numbers of orbitals and electrons, functional whose polarised form restricts to the unpolarised one, eigensolver, starting state and options of scf", "why_tests_cant": "a test compares final energies of one molecule up to the tolerance of the loop; it cannot show that every intermediate state corresponds, nor separate a difference of the equations from a difference of the stopping rule", "anchors": ["CADMium/kohnsham/scf.py:scf", "CADMium/kohnsham/kohnsham.py:Kohnsham", "CADMium/pssolver/calc_density.py:calc_density", "CADMium/pssolver/calc_energy.py:calc_energy", "CADMium/pssolver/get_homo.py:get_homo", "CADMium/psgrid/integrate.py:integrate"]}
{"id": "C94", "title": "inversions of the spins are independent and their failures are noticed", "statement": "When vp_kinetic('inversion') inverts the promolecular density, the solvers, the potential and the kinetic potential of each spin are those of the inversion of that spin alone; inversion_info afterwards holds the number of evaluations and the residual of every inverted spin, objects returned earlier keep their values, and Partition.scf stops with an error exactly when inversions left a residual above 1 in two passes in a row.", "quantifier": "every grid, density, guess, solver state, linear-solver and eigensolver answer, one or two spins, with or without ens_spin_sym, every history of residuals", "why_tests_cant": "a test runs one molecule whose inversions all succeed; it never sees a result object being overwritten by a later call or a failure of the first spin hidden by the second", "anchors": ["CADMium/partition/vp_kinetic.py:vp_kinetic", "CADMium/inverter/orbitalinvert.py:orbitalinvert", "CADMium/inverter/linresponse.py:linresponse", "CADMium/partition/scf.py:scf"]}
{"id": "C95", "title": "energy densities integrate to the partition energies", "statement": "The energy densities per particle which ep_hxc and ep_kinetic leave in V (ep_h, ep_x, ep_c, ep_kin) integrate with the promolecular density to Ep_h, Ep_x, Ep_c and Ep_kin, provided the molecular and fragment energies are the integrals of their own energy densities.", "quantifier": "every grid, density, weight, energy density, functional, number of spin columns, with or without ab_sym and ens_spin_sym, every kinetic_part_type", "why_tests_cant": "no test reads the energy densities; the errors (spin factor, squared weights, a third copy of the mirrored fragment, a square table instead of a field) leave all energies unchanged", "anchors": ["CADMium/partition/ep_hxc.py:ep_hxc", "CADMium/partition/ep_kinetic.py:ep_kinetic", "CADMium/partition/partition.py:Partition", "CADMium/kohnsham/kohnsham.py:Kohnsham"]}
{"id": "C96", "title": "options of Partition.scf act on the fragment they are for, in every pass", "statement": "alpha[0] and freeze_a are the mixing parameter and the switch of every component of fragment A (KSa, KSA), alpha[1] (or the only entry) and freeze_b those of B (KSb, KSB), whatever an earlier scf call left; any other length of alpha raises ValueError. In every pass each calculated component's density becomes (1-alpha) n + alpha nout with its own alpha, nout being the density its own Kohn-Sham problem returned in this pass (with the old external potential if frozen); with ab_sym B is the mirror image of A whatever alpha[1] is. The inverter sees avoid_loop set in the first pass and clear in all later ones.", "quantifier": "every option set, earlier state of the partition, iteration budget, ensemble or not, functionals, workers and inverters changing from pass to pass", "why_tests_cant": "the tests run one or two molecules with the same alpha for both fragments, so exchanged or stale parameters go unnoticed, and never look at single passes", "anchors": ["CADMium/partition/scf.py:54-72", "CADMium/partition/scf.py:94-118", "CADMium/partition/scf.py:146-197"]}
{"id": "C97", "title": "a self-consistent state is a stationary point of the energy", "statement": "If a pass of Kohnsham.scf returns the density it started from and the eigensolver is exact, then the total energy it reports, plus the energy in the external potential, is the energy of its orbitals (kinetic energy of the discretised operator plus nuclear, external, Hartree, exchange and correlation energy of their density), and this energy does not change in first order when the orbitals are varied.", "quantifier": "every grid, number of solvers and spin columns, functionals with potentials that are their derivatives, linear Hartree operator, mixing weight other than zero, and every variation of all orbitals together", "why_tests_cant": "A test varies a few orbitals of one molecule and sees small numbers; that the first variation is exactly the asymmetry of the two discretised operators is a statement about all states and variations.", "anchors": ["CADMium/kohnsham/scf.py:67-104", "CADMium/kohnsham/kohnsham.py:246-321", "CADMium/kohnsham/kohnsham.py:333-363", "CADMium/pssolver/calc_energy.py:7-49", "CADMium/psgrid/operators.py:44-63"]}
{"id": "C98", "title": "steps of orbitalinvert: which one is made and what it achieves", "statement": "Each pass of orbitalinvert that does not stop makes a Newton step when res_ncon > res_factor*res_ks, when res_ks < 100*tol_invert or, with avoid_loop and from the third pass on, when both residuals are below 1e-6 and within a factor ten of those two passes earlier; otherwise it recomputes the orbitals. A Newton step leaves only products of changes in the Kohn-Sham and density equations and leaves a solution alone; an orbital step keeps the potential up to a constant, leaves the Kohn-Sham residual zero and is followed by a Newton step.", "quantifier": "every residual history, step function, budget and option; every grid, number of orbitals, Hamiltonian, target density and vector X with exact linear solver and eigensolver", "why_tests_cant": "Which branch a pass takes depends on residuals of earlier passes that no test controls, and the quadratic remainder of a Newton step is an identity in all unknowns.", "anchors": ["CADMium/inverter/orbitalinvert.py:294-447", "CADMium/inverter/orbitalinvert.py:83-164"]}
{"id": "C99", "title": "calc_orbitals stores solutions of the eigenvalue problem, lowest first", "statement": "If the eigensolver returns exact solutions, calc_orbitals leaves in self.eig and self.phi the same eigenvalues in ascending order, each column of phi a non-zero solution (H0 + w veff) phi = eig w phi at the eigenvalue stored in the same position; and because the order is ascending, the eks of calc_energy is the lowest sum of orbital energies any distribution of the same number of electrons over these orbitals can have.", "quantifier": "All grids, Hamiltonians, potentials, numbers of orbitals, answers of the eigensolver, electron numbers and occupations.", "why_tests_cant": "A test sees one molecule and one eigensolver run: retries after a NaN answer and accidental degeneracies in an asymmetric potential do not occur in the sample inputs, and minimality over all occupations cannot be enumerated.", "anchors": ["CADMium/pssolver/calc_orbitals.py:37-72", "CADMium/pssolver/calc_energy.py:10-49"]}
{"id": "C100", "title": "The energy changes with the electron number by the frontier eigenvalue (Janak)", "statement": "For a self-consistent Kohn-Sham state with fractional occupation, the total energy of energy() (plus the energy in the external potential) with the same orbitals and a slightly different electron number in one solver changes, per electron, by the eigenvalue of the frontier orbital: by what get_homo returns when electrons are removed, by the eigenvalue of the lowest orbital with room when they are added, and it is differentiable with derivative get_homo when the frontier orbital is partly filled.", "quantifier": "All grids, objects, orbitals, eigenvalues, functionals with matching potentials, electron numbers, and directions of change.", "why_tests_cant": "A derivative at every state and every functional is not observable by running; finite differences of one molecule mix it with the error of the self-consistency.", "anchors": ["CADMium/pssolver/calc_density.py:8-48", "CADMium/pssolver/calc_energy.py:8-62", "CADMium/pssolver/get_homo.py:7-38", "CADMium/kohnsham/kohnsham.py:246-321", "CADMium/kohnsham/scf.py:64-116"]}
{"id": "C101", "title": "surprisal potential", "statement": "vp_surprise computes, at every point and for every fragment, the local entropy (in bits) of the two fragment densities' shares of the molecular density, and leaves in V.v_s of a fragment the functional derivative of the integrated entropy with respect to that fragment's density, one column per spin, finite also where a fragment has no density.", "quantifier": "every grid, every number of spin columns, all positive fragment densities, every fragment, ensemble or not", "why_tests_cant": "no test selects hxc_part_type surprisal; a wrong sign or a missing factor log 2 leaves plausible numbers, and the wrong shape appears only on the first call", "anchors": ["CADMium/partition/vp_surprise.py:vp_surprise", "CADMium/partition/partition.py:Partition.calc_protomolecule"]}
{"id": "C102", "title": "integrate converges to the volume integral", "statement": "Grid.integrate of the values which a continuous, axially symmetric function takes at the grid points converges, when the number of blocks grows, to the integral of the function over the three-dimensional box (the points whose distances to the nuclei sum up to less than 2 a cosh L); for smooth functions that vanish at the end of the box the error is of the order of the number of points per block.", "quantifier": "every continuous function, every order of the quadrature, every distance of the nuclei and every box size, all block numbers", "why_tests_cant": "a test integrates a few functions on a few grids; it cannot show convergence for every continuous function, and with unequal block numbers the error looks like a coarse grid", "anchors": ["CADMium/psgrid/integrate.py:integrate", "CADMium/common/NC.py:NC", "CADMium/psgrid/initialize.py:initialize", "CADMium/psgrid/psgrid.py:Psgrid"]}
{"id": "C103", "title": "The one-particle equation has real energies, bounded below, and a nodeless ground state", "statement": "The eigenvalue problem that calc_orbitals hands to eigs (the Hamiltonian of the grid plus a real local potential, with the volume element as the metric) has only real eigenvalues, so that keeping the real part loses nothing; none lies below the minimum of the potential (for even m including the centrifugal term); orbitals of different energies are orthogonal and the lowest energy obeys the variational principle in one positive weight which does not depend on the potential; the lowest energy is not degenerate and its orbital has no nodes.", "quantifier": "every number of grid points, every half distance and box size, every angular quantum number, every real potential", "why_tests_cant": "A test sees the eigenvalues of a few potentials; a real part taken of a complex eigenvalue looks like any other number.", "anchors": ["CADMium/pssolver/calc_orbitals.py:calc_orbitals", "CADMium/pssolver/pssolver.py:hamiltonian", "CADMium/psgrid/operators.py:operators", "CADMium/psgrid/finite_difference_1d.py:finite_difference_1d", "CADMium/psgrid/finite_difference_2d.py:finite_difference_2d"]}
{"id": "C104", "title": "eks is the ground-state energy of the non-interacting electrons", "statement": "With an eigensolver that returns the Nmo independent solutions nearest to e0, and e0 below all energies of the potential, calc_orbitals delivers the lowest solutions and the eks which calc_energy forms from them is the smallest energy that N electrons can have in any orthonormal set of trial orbitals with at most the capacity in each; it is attained. A start below the potential is below all energies, and what is asked of the eigensolver can be met.", "quantifier": "every grid size, box and half distance, every angular quantum number, real potential, number of orbitals, electron number, polarisation, fractional filling or not", "why_tests_cant": "The minimum over all sets of trial orbitals cannot be sampled; a state missed below e0 leaves plausible energies.", "anchors": ["CADMium/pssolver/calc_orbitals.py:calc_orbitals", "CADMium/pssolver/calc_energy.py:calc_energy", "CADMium/pssolver/pssolver.py:hamiltonian", "CADMium/kohnsham/kohnsham.py:123-130"]}
{"id": "C105", "title": "one occupied orbital: the density determines the potential", "statement": "For a solver with a single orbital every positive density with its number of electrons is the ground-state density of exactly one potential, up to a constant; a density that vanishes at a point belongs to no potential; and an orbital inversion that reports success with the target density returns this potential.", "quantifier": "every grid size, box and half distance, angular quantum number, polarisation, electron number up to the capacity, positive target density", "why_tests_cant": "Uniqueness compares all pairs of potentials, and an inversion that stops at an excited state has a vanishing residual and the exact density.", "anchors": ["CADMium/pssolver/calc_orbitals.py:calc_orbitals", "CADMium/pssolver/calc_density.py:calc_density", "CADMium/pssolver/pssolver.py:hamiltonian", "CADMium/inverter/orbitalinvert.py:orbitalinvert"]}
{"id": "C106", "title": "how eks depends on the potential", "statement": "As a function of the potential eks does not fall when the potential rises, changes by at most the number of electrons times the largest change, takes up a constant once per electron and is concave; and the density of calc_density is its derivative: another potential raises eks by at most the integral of density times change.", "quantifier": "every grid size, box and half distance, angular quantum number, electron number, polarisation, pair of potentials", "why_tests_cant": "The claims compare all pairs of potentials; a first-order mismatch between the quadrature of the density and the difference matrices is as small as the discretisation error.", "anchors": ["CADMium/pssolver/calc_energy.py:calc_energy", "CADMium/pssolver/calc_orbitals.py:calc_orbitals", "CADMium/pssolver/calc_density.py:calc_density", "CADMium/psgrid/integrate.py:integrate"]}
{"id": "C107", "title": "the shipped examples describe the systems they are named after", "statement": "Each of the nine scripts in examples/Kohn_Sham passes the option handling of Kohnsham and of Kohnsham.scf, and the density of its first iteration has the electrons of the neutral atom or molecule in its name, one fewer for H2p, and is nowhere negative.", "quantifier": "every script, every grid, coordinate table and orbitals delivered by the solvers in the numbers asked for", "why_tests_cant": "The tests do not run the examples, and an occupation table that is off by an electron converges like a correct one.", "anchors": ["CADMium/examples/Kohn_Sham/H2_KS.py:10-26", "CADMium/examples/Kohn_Sham/C2_KS.py:11-25", "CADMium/kohnsham/kohnsham.py:Kohnsham", "CADMium/kohnsham/scf.py:scf"]}
{"id": "C108", "title": "enhancement factors of the parametrised kinetic functionals", "statement": "TW_paramke(s, k) returns at every point the enhancement factor 1 + kappa - kappa/(1 + mu s^2/kappa) of Tran and Wesolowski, which is 1 without gradient, below 1 + kappa and grows with the gradient; PW91k_paramke returns the factor of Lembarki and Chermette. With a parameter missing both raise (TW_paramke always IndexError).", "quantifier": "every array of reduced gradients and all parameters (kappa, mu > 0)", "why_tests_cant": "No test calls these functions, and whether a product @ is defined depends on the shapes of both operands.", "anchors": ["CADMium/functionals/TW_paramke.py:TW_paramke", "CADMium/functionals/PW91k_paramke.py:PW91k_paramke", "CADMium/paramke/paramke.py:42-48"]}
{"id": "C109", "title": "exchanging the nuclei mirrors a Kohn-Sham calculation", "statement": "Constructing a Kohnsham object with exchanged charges gives the mirrored object, and scf does to it exactly what it does to the original: the same exception, or the same number of passes with the same changes, the same energies, levels and chemical potential, and mirrored densities, potentials and orbitals. In particular a homonuclear molecule ends with a mirror-symmetric density also without the sym option. The potential of the nuclei, the differential operators, the Hamiltonian, LDA and GGA functionals and the Hartree potential of the grid have the symmetry this needs.", "quantifier": "all objects, charges, occupations, options (continuing, iterative, spin symmetry, mixing, tolerances), one and two spin columns, all numbers of passes, all pointwise functionals; all grids whose integral is mirror invariant", "why_tests_cant": "A run on one molecule cannot show that no step anywhere prefers one side of the grid; the comparison has to hold for every potential met on the way.", "anchors": ["CADMium/kohnsham/scf.py:scf", "CADMium/kohnsham/kohnsham.py:calc_density", "CADMium/kohnsham/kohnsham.py:energy", "CADMium/kohnsham/kohnsham.py:calc_hxc_potential", "CADMium/psgrid/mirror.py:mirror", "CADMium/psgrid/operators.py:operators", "CADMium/pssolver/pssolver.py:99-120"]}
{"id": "C110", "title": "ab_sym only saves work: the result is the same as without it", "statement": "For a molecule of two equal fragments at equal nuclei (each the mirror image of the other), Partition.scf with optPartition.ab_sym=True and with ab_sym=False behave alike: both raise the same exception, or both return after the same number of iterations with the same convergence changes, the same promolecular density, partition potential and energies and the same densities, potentials, Q functions and energies of both fragments; only B's solvers, HOMOs and vhxc are not computed with ab_sym. The run without ab_sym keeps the fragments mirror images of each other and nf, vp mirror symmetric. This holds without ensembles, for both calc_types, all hxc parts and every kinetic part except inversion and two-orbital, if both fragments are frozen or mixed alike. It fails otherwise: with two mixing parameters ab_sym silently ignores the second, in an ensemble the energy of B differs, and in the inversion the reference chemical potential differs.", "quantifier": "all mirror-symmetric grids, functionals, worker processes (which may differ between iterations), tolerances, iteration limits, spin counts, option values named above, and all initial states that are mirror symmetric", "why_tests_cant": "A test compares the two runs for one molecule up to a tolerance; the claim is exact equality of all attributes after every number of iterations and for all functionals, and it needs the invariant that the run without the option stays symmetric.", "anchors": ["CADMium/partition/scf.py:94-126", "CADMium/partition/scf.py:141-197", "CADMium/partition/partition.py:323-351", "CADMium/partition/partition_potential.py:36-63", "CADMium/partition/energy.py:44-78", "CADMium/partition/ep_hxc.py:17-99"]}
{"id": "C111", "title": "The reported version describes the state of the source tree", "statement": "In a source tree under git, get_versions() reports TAG exactly at a tag with no changes, TAG+DISTANCE.gHEX[.dirty] otherwise (a dot instead of the plus if the tag has one), and 0+untagged.DISTANCE.gHEX[.dirty] without a tag, together with the commit, the dirty flag and the date in ISO form; tags may contain hyphens. The parser finds exactly what its regular expression describes. If no tag contains a plus, the version string determines tag, distance and dirty flag, and the abbreviated commit unless the tree is exactly at the tag. Every style of render() produces its documented format, and raises KeyError if the pieces lack a key it reads. get_versions(), which runs on import, raises in exactly these cases: git describe and rev-parse succeed and git show fails, or without a tag git rev-list fails or prints no number.", "quantifier": "all tags, distances, commits and dates that git can print; for the exceptions all results of the five commands", "why_tests_cant": "A test sees the tags of one repository; ambiguities need all tags (hyphens, dashes followed by digits, plus signs) and all pairs of trees.", "anchors": ["CADMium/_version.py:get_versions", "CADMium/_version.py:git_pieces_from_vcs", "CADMium/_version.py:render", "CADMium/_version.py:render_pep440"]}
{"id": "C112", "title": "The version of an archive is a tag of its commit", "statement": "In an archive made by git archive, the version get_versions() reports is, for every list of names of the commit, the first of its tags in the order of the code points, with the commit and date and without error; a commit without tags should report 0+unknown with an error. An archive unpacked outside of git should report the version in its directory's name. The last two fail: without tags the first name with a digit is reported, so the branch fix2 gives the version 'HEAD -> fix2'; of the tags 1.0 and 1.1 the older is reported; and the directory prefix is the text None, so CADMium-VERSION is never recognised and a directory None... is.", "quantifier": "all lists of heads, tags and branches without commas and parentheses, all commits and dates; all directory names", "why_tests_cant": "Archives are not part of a test run; the claim quantifies over all sets of names of a commit.", "anchors": ["CADMium/_version.py:git_versions_from_keywords", "CADMium/_version.py:versions_from_parentdir", "CADMium/_version.py:get_versions"]}
{"id": "C113", "title": "The names of the two spins do not matter", "statement": "For a spin-polarised Kohnsham object (pol = 2), exchanging the two columns of N and Nmo (and of any external potential or starting density) exchanges the two columns of everything scf() produces: densities, potentials, solvers, per-spin energies. scf() returns for one exactly when it returns for the other, after the same passes with the same convergence measures, and with the same total energy, all energy components, chemical potential, and the same levels up to order. Consequently a calculation that starts with equal spins ends with equal spin densities and levels: scf() cannot break the symmetry of the spins.", "quantifier": "all grids, tables Nmo and N with two columns, interaction types, options, functionals that treat the spins alike (proved for every LDA and GGA of libxc that does, and for the Hartree potential), eigenvalue solvers that look only at their own solver object, any number of passes", "why_tests_cant": "Needs all open-shell occupations, functionals and options; a run compares one pair.", "anchors": ["CADMium/kohnsham/scf.py:scf", "CADMium/kohnsham/kohnsham.py:energy", "CADMium/kohnsham/kohnsham.py:calc_density", "CADMium/kohnsham/kohnsham.py:calc_chempot", "CADMium/kohnsham/kohnsham.py:calc_hxc_potential"]}
{"id": "C114", "title": "A non-interacting one-nucleus calculation scales with the size of the grid", "statement": "Two non-interacting Kohnsham objects describe the same physics if one has the focal distance multiplied by x and the nuclear charges divided by x. With one nucleus, scf() of the second object must raise the same exception as scf() of the first, or stop after the same number of passes with the same recorded changes and return every energy, eigenvalue and chemical potential divided by x squared and every density divided by x cubed. The grid tables, difference operators, Hamiltonian, nuclear potential and Hartree potential must have the corresponding powers of x.", "quantifier": "for all x > 0, all grids, all charges with Za*Zb = 0, all occupations, spins and options with interaction_type 'ni', all start states and all worker results that solve the eigenproblem", "why_tests_cant": "A test compares two grids at one x to rounding; a wrong power of the focal distance in one table is invisible for a = 1, and a convergence check with an absolute scale only differs for some x.", "anchors": ["CADMium/kohnsham/scf.py:scf", "CADMium/kohnsham/kohnsham.py:energy", "CADMium/psgrid/initialize.py:43-82", "CADMium/psgrid/operators.py:operators", "CADMium/common/coulomb.py:coulomb", "CADMium/hartree/hartree.py:v_hartree", "CADMium/pssolver/calc_energy.py:calc_energy", "CADMium/pssolver/get_homo.py:get_homo"]}
{"id": "C115", "title": "Which fragment is called A does not matter", "statement": "Exchange the two fragments of a Partition: Za with Zb, the occupations of A with those of B, and the two entries of alpha and the frozen flags in optSCF. Then scf() returns for one exactly when it returns for the other, after the same number of iterations with the same recorded changes, and the results are exchanged: fragment B of the second is the mirror image of fragment A of the first and the reverse (densities, orbitals, potentials, Q functions, energies), nf, vp, vt and all partition potentials are mirror images, and Ef, Ep, E, Vnn and all components of the partition energy are equal. The constructor gives such a pair. This fails in an ensemble (energy() uses the energy of B twice, so the total depends on the names) and in the inversion (the reference chemical potential is that of B).", "quantifier": "all mirror-symmetric grids, functionals and worker processes (proved for the real grid with libxc functionals), charges, occupations, spin counts, options, iteration limits and start states, without ab_sym; fragments with integer occupations; every kinetic part except inversion and two-orbital (any kinetic part if the fragments are isolated)", "why_tests_cant": "A test exchanges one molecule with one set of options; a formula in one of the partition potentials that treats A and B differently matters only for heteronuclear molecules with that option.", "anchors": ["CADMium/partition/scf.py:scf", "CADMium/partition/energy.py:energy", "CADMium/partition/partition_energy.py:partition_energy", "CADMium/partition/partition_potential.py:partition_potential", "CADMium/partition/vp_nuclear.py:vp_nuclear", "CADMium/partition/vp_kinetic.py:vp_kinetic", "CADMium/partition/vp_hxc.py:vp_hxc", "CADMium/partition/vp_overlap.py:vp_overlap", "CADMium/partition/vp_surprise.py:vp_surprise", "CADMium/partition/ep_nuclear.py:ep_nuclear", "CADMium/partition/partition.py:calc_nuclear_potential"]}
{"id": "C116", "title": "The response matrix is the derivative of the density", "statement": "If the potential passed to a solver depends differentiably on a parameter, then the density that calc_orbitals and calc_density give changes with it by chi @ dv, where chi is what calc_response leaves at that potential; consequently Inverter.Jacobian is the derivative of the residual of Inverter.Ws. This holds for m = 0 if all integration weights are equal. For m > 0 the density changes by twice as much. With unequal weights, such as those of the grid, the derivative is the response of each orbital with a multiple of the orbital's density subtracted that makes its grid integral vanish: calc_response keeps the unweighted norm fixed, calc_density the weighted one.", "quantifier": "all grids with positive volume elements, Hamiltonians (symmetric or not), potentials, electron numbers with whole orbitals, spin settings and differentiable families of orbitals with non-singular bordered systems", "why_tests_cant": "A finite-difference test would see a deviation of the size of the weights' variation and blame the step; which term is missing, and that there is no other, is a statement about all perturbations.", "anchors": ["CADMium/pssolver/calc_response.py:calc_response", "CADMium/pssolver/calc_density.py:calc_density", "CADMium/inverter/inverter.py:Ws", "CADMium/inverter/inverter.py:Jacobian"]}
{"id": "C117", "title": "The response is reciprocal and levels change by the density", "statement": "The matrix of calc_response is reciprocal: the response at point k to the potential at l, times the volume element at k, equals the response at l to the potential at k times the volume element at l. A level changes by the expectation value of the change of the potential, eks changes by the integral of the density times the change of the potential, and eks minus the integral of potential times density (the kinetic energy) by minus the integral of the potential times the change of the density. All this holds where the Hamiltonian is symmetric and, for the last two, the integration weights are equal. The Hamiltonian of a grid with three-point stencils and at least three angular points is never symmetric; there a level changes by the expectation value in another weight, the same for every potential.", "quantifier": "every Hamiltonian that is symmetric (respectively symmetric in some positive weight), potential, electron number, differentiable family of potentials, direction; every grid size, box and half distance for the lack of symmetry", "why_tests_cant": "Tests compare total energies of two atoms on one grid; symmetry of a response matrix and derivatives with respect to a function are statements about infinitely many perturbations.", "anchors": ["CADMium/pssolver/calc_response.py:calc_response", "CADMium/pssolver/calc_energy.py:calc_energy", "CADMium/pssolver/calc_density.py:calc_density", "CADMium/pssolver/pssolver.py:99-120", "CADMium/inverter/get_Ts.py:get_Ts"]}
{"id": "C118", "title": "A fragment that holds all electrons is the molecule", "statement": "If fragment A of a partition (no ensemble, no symmetry options, exact Hartree, exchange and correlation parts, kinetic part absent or a function of the density) holds all electrons and fragment B none, then every pass of Partition.scf does for fragment A exactly what a pass of Kohnsham.scf does for the whole molecule: same effective potential, orbitals, density, chemical potential and (non-nuclear) energies; at self-consistency the total energies agree too. (False for 'pdft' where the density vanishes at a grid point: there Q is 0/0, replaced by 0, so fragment A does not feel the other nucleus; the partition calculation can then be self-consistent at a density which is not that of the molecule.)", "quantifier": "all grids, numbers of solvers, functionals, worker results that depend on the solvers and the potential only, mixing parameters, densities, numbers of passes", "why_tests_cant": "The agreement must hold for every grid, functional and number of passes; a test compares two converged runs to a tolerance, and both programs need minutes and a converged result to compare.", "anchors": ["CADMium/partition/scf.py:153-197", "CADMium/kohnsham/scf.py:64-104", "CADMium/partition/partition_potential.py:partition_potential", "CADMium/partition/partition.py:calc_Q", "CADMium/partition/partition_energy.py:partition_energy"]}
{"id": "C119", "title": "The numerical solver gives the difference coefficients it is asked for", "statement": "finite_difference_coefficients(x, d), run with numpy's least-squares solver (which drops singular values below the machine precision times the largest) and, for an integer array x, numpy's 64-bit integers, returns the coefficients of the exact least-squares problem, so that the moment conditions hold. (True for the centred stencils -k..k with k <= 9, and for all offsets whose Taylor table has a condition number below 2^53. False for 21 integer offsets, because 10**19 does not fit into 64 bits; false for offsets closer than 2^-54.)", "quantifier": "all stencils of distinct points, all derivative orders", "why_tests_cant": "The tests use one stencil (-4..4); the point where integers wrap around or singular values are dropped is not visible from it, and no exception is raised there.", "anchors": ["CADMium/common/finite_difference_coefficients.py:37-56", "CADMium/psgrid/finite_difference_1d.py:14-15", "CADMium/psgrid/finite_difference_2d.py:14-15"]}
{"id": "C120", "title": "Interrupting, continuing and repeating a Kohn-Sham calculation", "statement": "A Kohnsham.scf calculation that stops at its iteration limit and is taken up again with continuing=True ends in the same state (potentials, density, orbitals, energies, chemical potential) as one that makes the same number of passes at a stretch. A calculation that is started anew on an object that was used before gives the same final object, the same changes in every pass and the same exception as on an unused one. A calculation that is continued although it has converged makes two passes, because the first change of the energy is taken against 0. Cases where this fails: with iterative=True (the default) the continued calculation uses iter_orbitals from its first pass, the uninterrupted one only once the change is below 0.01; with a limit of at most 1 no pass is made and the energies and chemical potential of the earlier calculation remain beside the density of the bare nuclei.", "quantifier": "all grids, functionals, worker results that depend only on the solver's own data (for repeating), options, limits, tolerances and objects", "why_tests_cant": "A test compares one interrupted run with one uninterrupted run, up to a tolerance that hides the difference; equality of the whole state for every cut point, limit and tolerance is a statement about all pairs of runs.", "anchors": ["CADMium/kohnsham/scf.py:8-116", "CADMium/kohnsham/kohnsham.py:196-245"]}
{"id": "C121", "title": "A partition calculation can be interrupted and continued", "statement": "Running Partition.scf with max_iter=k1, then again with continuing=True and max_iter=k2, leaves the same partition object (densities, orbitals, potentials, energies) and appends the same sequence of changes as one run with max_iter=k1+k2; and running it twice from scratch gives the same as running it once.", "quantifier": "all partitions (any functional options except kinetic inversion, with or without ab_sym, ensembles, isolated or interacting), all environments and solvers, all numbers of passes, all mixing parameters; with iterative only if no change after the interruption is below 0.01", "why_tests_cant": "The continued calculation starts with the change 10 and with avoid_loop set, both invisible in its results until a change falls below 0.01 or an inversion is made; a test with one grid and one option cannot tell for which calculations the restart is exact.", "anchors": ["CADMium/partition/scf.py:34-247", "CADMium/kohnsham/kohnsham.py:196-245", "CADMium/partition/partition.py:scf"]}
{"id": "C122", "title": "integrate in floating-point arithmetic: error, sign, order", "statement": "With every operation rounded and np.sum adding in any order, the value returned by Psgrid.integrate for a one-dimensional array differs from the exact weighted sum by at most ((1+u)^(depth+6)-1) times the sum of the absolute values; for a function that is not negative it is right up to the factor (1-u)^(depth+6). It grows with the function, is not negative for functions that are not negative, and changes sign with the function exactly. The integral of the mirrored function is the integral with the additions in mirrored order, exactly; with a fixed order it may be another number.", "quantifier": "all grids, all arrays, all orders of summation, all roundings with relative error u (underflow allowed for the statements on sign, order and mirroring)", "why_tests_cant": "The order of summation depends on array length, memory layout and processor, and the error on the values; a test sees one order and a few arrays.", "anchors": ["CADMium/psgrid/integrate.py:integrate", "CADMium/psgrid/mirror.py:mirror"]}
{"id": "C123", "title": "solver densities in floating-point arithmetic: accuracy, electrons, sign, symmetry", "statement": "With every operation rounded, calc_density of a solver returns at every point the exact density up to the factor (1-u)^(depth+filled shells+13), raises the same exception as in exact arithmetic, and its density holds N electrons up to that factor (a further (1-u)^(depth+6) when integrate counts them). It is not negative anywhere. Orbitals that are exactly even or odd give an exactly mirror symmetric density, and sym=True makes orbitals exactly even or odd.", "quantifier": "all grids with weights that are not negative, all orbitals whose occupied members have non-zero norm, all N, all orders of summation, all roundings with relative error u (any rounding for sign and symmetry)", "why_tests_cant": "A test compares with a tolerance for a few systems; that no cancellation can occur at any point, for any orbitals and any order of summation, is a statement about all inputs.", "anchors": ["CADMium/pssolver/calc_density.py:calc_density", "CADMium/pssolver/calc_orbitals.py:63-72", "CADMium/psgrid/integrate.py:integrate"]}
{"id": "C124", "title": "Kohn-Sham densities in floating-point arithmetic through any number of passes", "statement": "With every operation rounded, after k passes of Kohnsham.scf (initial guess, sum over solvers, linear mixing with 0 <= alpha <= 1, symmetrisation) every column of the density holds the electrons of its solvers up to the factor (1-u)^(depth+filled shells+15+solvers+5k) and is not negative anywhere, whatever orbitals the workers find; with sym the density is mirror symmetric and with spinflipsym symmetric under mirror and spin flip, both exactly.", "quantifier": "all calculations (any number of solvers, spins and passes, any orbitals found in each pass), all mixing parameters between 0 and 1, all orders of summation, all roundings with relative error u", "why_tests_cant": "Rounding errors accumulate over passes that depend on what the eigensolver returns; a test cannot bound the drift for all runs.", "anchors": ["CADMium/kohnsham/scf.py:36-104", "CADMium/kohnsham/kohnsham.py:196-245", "CADMium/pssolver/calc_density.py:calc_density"]}
{"id": "C125", "title": "promolecule and Q functions in floating-point arithmetic", "statement": "With every operation of calc_protomolecule and calc_Q rounded (relative error at most u): the fragment densities na_frac, nb_frac are the exact weighted sums up to the factor (1-u)^4 at every point, nf up to (1-u)^5, and so are the electron numbers of the columns of nf. With ens_spin_sym both columns of nf are identical to the last digit. For densities and scale factors that are not negative every Q lies between 0 and 1 without any tolerance, also if numbers underflow; where the exact promolecular density is positive the Q functions (plus those of the other spin with ens_spin_sym) add up to 1 up to the factor (1-u)^7, where it is 0 they are 0. If B is the mirror image of A (ab_sym), nb_frac is the mirror image of na_frac, nf its own mirror image and the Q functions of B those of A mirrored, to the last digit and for every rounding. Where numbers underflow the sum need not be near 1 (refuted: all Q are 0 although the density is positive).", "quantifier": "all roundings (monotone, odd; relative error u; idempotent for the range), all grids, densities, weights, one or two components per fragment", "why_tests_cant": "A test shows the rounding errors of the numbers it is run with, not a bound for all of them, and seldom a density at the smallest number.", "anchors": ["CADMium/partition/partition.py:calc_protomolecule", "CADMium/partition/partition.py:calc_Q", "CADMium/partition/partition.py:353-394"]}
{"id": "C126", "title": "the partition potential in floating-point arithmetic", "statement": "With every operation of the averaging in partition_potential rounded (relative error at most u): each of V.vp, V.vp_pot, V.vp_kin, V.vp_hxc, V.vp_h, V.vp_x, V.vp_c differs from the exact Q-average of the component potentials it is computed from by at most (1+u)^8-1 times the average of the absolute values; it never exceeds (1+u)^8 s M for potentials bounded by M and Q functions that are not negative and add up to at most s. V.vp differs from V.vp_pot + V.vp_kin + V.vp_hxc by at most 2((1+u)^10-1) times the average of the sum of absolute values. With ab_sym the averages are mirror symmetric and with ens_spin_sym equal for both spins, to the last digit. Without ensembles mirror-image fragments give a mirror-symmetric potential to the last digit also without ab_sym; in ensembles they need not (refuted), since the components are added in the order a, A, b, B.", "quantifier": "all roundings (monotone, odd, relative error u), all grids, component potentials, Q functions, both options, one or two components per fragment", "why_tests_cant": "Tests compare with tolerances chosen by hand; whether symmetry is exact depends on the order of additions, and holds by chance for many inputs.", "anchors": ["CADMium/partition/partition_potential.py:6-115", "CADMium/partition/partition_potential.py:32-63"]}
{"id": "C127", "title": "integrate of a non-negative field is non-negative", "statement": "On every grid built by initialize, grid.integrate(f) of a field with no negative entry is >= 0, and is 0 only for the zero field; in particular the squared norm that calc_density divides by is positive for every orbital that is not identically zero.", "quantifier": "every NP>=2, every block counts NM=[NMa,NMr] with NMa, NMr >= 1, every half bond length a>0 and box L>0, every non-negative field, every orbital", "why_tests_cant": "tests use NP=7 with one family of densities; the sign of high-order Newton-Cotes weights changes with NP (NP=9, 11, 12 have negative weights) and only fields concentrated at particular points show it", "anchors": ["CADMium/common/NC.py:NC", "CADMium/psgrid/initialize.py:initialize", "CADMium/psgrid/integrate.py:integrate"]}
{"id": "C128", "title": "Arrays taken from the objects keep their content", "statement": "Whatever arrays are shared when a method of the grid, the orbital solvers, Kohnsham, Partition or the inverter is called, the method changes only the attributes it assigns to: an array the caller took earlier (v = KS.veff, n = partition.nf, na = partition.na_frac) keeps its content through any later sequence of calls, completed or stopped by an exception, and everything that can be read afterwards is what it would be if every attribute had a copy of its own. This fails for orbitalinvert (inverter.vs taken after one inversion is overwritten by the next), for iter_orbitals called directly and, for the potential held by the solver, for simple.", "quantifier": "all methods listed in the model, all objects, all branches and numbers of loop rounds, all states of memory with any sharing, all array contents and slices, all scripts of calls", "why_tests_cant": "A test compares values after one call; whether some other variable still refers to the array that was changed in place depends on the whole history of assignments, slices and calls.", "anchors": ["CADMium/kohnsham/kohnsham.py:157-244", "CADMium/partition/partition.py:310-394", "CADMium/partition/partition_potential.py:11-67", "CADMium/partition/energy.py:11-145", "CADMium/partition/scf.py:72-245", "CADMium/inverter/orbitalinvert.py:189-192", "CADMium/inverter/orbitalinvert.py:457-466", "CADMium/pssolver/iter_orbitals.py:57-59", "CADMium/inverter/simple.py:16-63", "CADMium/psgrid/finite_difference_2d.py:31-58"]}
{"id": "C129", "title": "When mixing makes the Kohn-Sham calculation converge", "statement": "Without spinflipsym, each pass of Kohnsham.scf replaces the density by (1 - alpha) n + alpha m, where m is the density of the orbitals found in the potential of n, and the changes compared with Tol are those of energy and density between passes. If the output densities contract towards a density with factor L < 1, each pass reduces the distance by the factor 1 - alpha + alpha L, and with a Lipschitz energy bounded away from 0 and two spins the number of passes is bounded independently of maxiter. If the output responds against the input, the squared distance shrinks exactly for alpha < 2(1-b)/(1-2b+M). Mixing alone does not give convergence: there is an object on which no calculation with a tolerance below alpha ends before maxiter, for any alpha in (0,1].", "quantifier": "all grids with non-negative weights, functionals, solvers, options without spinflipsym, starting densities, mixing parameters in (0,1] and iteration limits", "why_tests_cant": "A test sees one molecule and one mixing parameter; whether small mixing parameters always help, and how many passes are needed at most, are statements about all of them.", "anchors": ["CADMium/kohnsham/scf.py:52-116", "CADMium/kohnsham/kohnsham.py:186-244"]}
{"id": "C130", "title": "The life of a grid object: what works before, after and between initialisations", "statement": "On a Psgrid whose initialize() was never called, every sequence of other calls raises at each call except spinflip and leaves every derived attribute except d1 and d2 None. initialize() computes every attribute from NP, NMa, NMr, a, L, i1 and i2 alone, whatever the object held before, and after it succeeds no attribute but R is None. After a successful initialize(), any sequence of calls leaves every attribute unchanged, and each call answers as it would have right after initialize(). After the caller assigns a new a, operators() and factorize_laplacian() leave the object as initialize() would except Z, Y, w and f, which keep the old a, so integrals are off by the cube of the ratio. An initialize() that raises is not undone: with L lost every other method still answers as before, and with NP also changed the object mixes new and old sizes.", "quantifier": "all parameter values, all contents of the object, all sequences of method calls with any arguments, and every arithmetic for the individual statements, including ones that raise", "why_tests_cant": "Tests build one grid, call initialize once and go on; that no order of calls and no earlier content of the object matters is a statement about all histories.", "anchors": ["CADMium/psgrid/psgrid.py:164-306", "CADMium/psgrid/initialize.py:14-86", "CADMium/psgrid/finite_difference_1d.py:11-59", "CADMium/psgrid/finite_difference_2d.py:11-58", "CADMium/psgrid/operators.py:12-70", "CADMium/psgrid/factorize_laplacian.py:10-20"]}
{"id": "C131", "title": "The installation files ask for what the package needs", "statement": "create_conda_env.py with version v turns the dependencies of an environment file into 'python v*' followed by the other entries, unchanged and in order; exactly the entries python with at most one simple condition count as Python. Proved when every entry before the one for Python is a string, in particular for the shipped test_env.yaml. If an entry that is not a string (the packages for pip) comes first, or there is no entry for Python beside it, every dependency is dropped. A second entry for Python, or a range of versions, stays beside the requested one. setup.py requires every package that the modules import: it does not, a missing comma makes it require pydanticwheel instead of pydantic, and pylibxc is not required.", "quantifier": "all environment files as parsed, all versions", "why_tests_cant": "The script is only ever run on the one shipped file, where Python comes before the pip entry.", "anchors": ["devtools/scripts/create_conda_env.py:59-75", "devtools/conda-envs/test_env.yaml:5-26", "setup.py:49-54"]}
{"id": "C132", "title": "When mixing makes the partition calculation converge", "statement": "Suppose that, whenever the densities of all components of the fragments are within rho of given targets before a pass of Partition.scf, what the pass mixes into them is within L rho of the targets. Then after k passes every density is within q^k times the starting distance, where q is the larger of 1 - alpha + alpha L for the mixing parameters of the two fragments; with ab_sym only the first parameter matters and fragment B is the mirror image of A. With ab_sym and a quadrature that does not see the mirror, B approaches the mirror images of the targets at the same rate. Without from_target_density the promolecular density nf converges to the weighted sum of the targets (and their spin flips with ens_spin_sym) at the same rate, up to the sum of the weights. If moreover L < 1, the parameters that matter are in (0,1], there are two spins, every pass leaves at least nu electrons of each spin and the energy is Lipschitz and bounded away from 0, the number of passes is bounded independently of max_iter. The converse wish, that the loop ends only when the fragments have converged, is false: the test sees the energy and nf, and opposite changes of the two fragments cancel in nf.", "quantifier": "all grids with non-negative weights, functionals, solvers, partitions, options, starting densities and mixing parameters in [0,1]", "why_tests_cant": "A test sees one molecule with one pair of mixing parameters; the rate, the dependence on the slower of the two fragments and a bound on the number of passes are statements about all of them.", "anchors": ["CADMium/partition/scf.py:128-247", "CADMium/partition/scf.py:scf"]}
{"id": "C133", "title": "The starting energies of the eigenvalue search", "statement": "Kohnsham.__init__ starts the eigenvalue search of solver (i,j) at minus the square of the larger nuclear charge (times 3/2 without interaction) divided by (i+1)^2; the value does not depend on which nucleus is A and scales like the energies under a change of units. The wish is that the start is below all energies, so that calc_orbitals finds the lowest states. It holds when no grid point is too near to a nucleus, and on a given grid for all sufficiently large charges, in every potential that is not below that of the nuclei. It fails for a fragment in the presence of a heavy nucleus of the other fragment, and for the fixed start -20 of linresponse and of solvers made with Pssolver, whatever the grid.", "quantifier": "all grid sizes, boxes, half distances, angular momenta, charges, potentials and weights of the other nucleus", "why_tests_cant": "The tests use light atoms, for which -20 is low enough; whether some charge, distance or grid has a state below the start is a statement about all of them.", "anchors": ["CADMium/kohnsham/kohnsham.py:123-130", "CADMium/pssolver/pssolver.py:71-71", "CADMium/inverter/linresponse.py:44-47", "CADMium/inverter/linresponse.py:77-79", "CADMium/pssolver/calc_orbitals.py:calc_orbitals"]}
{"id": "C134", "title": "The life of a Kohn-Sham object: what works before and after scf", "statement": "A Kohnsham object that was constructed but on which scf has not been called cannot produce anything: whatever other methods are called before, in any order and number, set_effective_potential, set_veff_external and energy raise TypeError, calc_density raises KeyError (its workers die), calc_chempot raises TypeError if any solver has electrons, calc_hxc_potential raises for interaction 'dft', and scf with continuing=True raises TypeError. After a run of scf that made at least one pass (exactly: maxiter > 1 and e_tol < 10) the object is up to date: calling energy(), calc_chempot(), and without spinflipsym set_effective_potential() or set_veff_external(v), changes no attribute. With spinflipsym set_effective_potential() only replaces self.veff by the potential that was not symmetrised. Calling calc_hxc_potential() and then energy() changes vhxc and E.Vhxc and nothing else.", "quantifier": "For all grids, tables of at least one solver with states to find, functionals, workers, options, and all histories of method calls.", "why_tests_cant": "Tests call the methods in one fixed order; the claim is about all orders and lengths of call histories and about every attribute of the object.", "anchors": ["CADMium/kohnsham/kohnsham.py:157-384", "CADMium/kohnsham/scf.py:21-116", "CADMium/pssolver/calc_orbitals.py:18-18"]}
{"id": "C135", "title": "What a partition calculation leaves behind is up to date", "statement": "After Partition.scf returned and made at least one pass, the Q functions, the promolecular density and all energies belong to the final densities of the fragments: calling calc_Q() or energy() once more changes no attribute of the partition or its fragments, and the same holds for calc_protomolecule() unless the promolecule was taken from a target density. This holds for isolated calculations and for every hxc_part_type with any kinetic part other than 'twoorbital'. For the same options a second energy() in a row never changes anything, whatever the state of the partition. Before scf, energy() on a new partition raises AttributeError, and so does calc_Q() on fragments with densities without a promolecule. The preparation before the first pass (initial guess included) also leaves Q functions and promolecule up to date.", "quantifier": "For all grids, fragments (with and without ensembles), functionals, eigensolver results, inversions, mixing and freezing options, and numbers of passes.", "why_tests_cant": "Tests compare final energies of a few converged molecules; a calculation whose energies lag one pass behind agrees with them to the convergence threshold.", "anchors": ["CADMium/partition/scf.py:34-247", "CADMium/partition/partition.py:calc_protomolecule", "CADMium/partition/partition.py:calc_Q", "CADMium/partition/energy.py:energy", "CADMium/partition/ep_hxc.py:6-145"]}
