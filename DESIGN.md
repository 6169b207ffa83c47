# Formal model of pyCADMium: design

Source under study: `/repo` (wasserman-group/pyCADMium at the pinned commit), read as text only.
Nothing in `/repo` was run.  The model is a hand translation; its faithfulness is the main
thing a reader has to check, which is why each definition cites file and lines.

## Trusted base

* Lean 4.33.0's kernel.  No axioms are added; no `sorry`, `admit`, `native_decide`, `bv_decide`.
* Axioms: every theorem named in MANIFEST.json depends on no more than `propext`, `Classical.choice`,
  `Quot.sound`.  The list per theorem, as `#print axioms` prints it, is in `AXIOMS.md`.
* The hand translation Python -> Lean (see "What is modelled").
* Conventions of numpy / scipy that the translation relies on, stated where used
  (F-order reshape, negative indexing and slicing, broadcasting, `max` semantics with NaN,
  sparse `*` being matrix product, `nan_to_num`, arrays shared between objects after an assignment).

## Numeric domain

* Field values are elements of an arbitrary linearly ordered field `K` (so results hold over the
  rationals and the reals) or of the reals where the code calls `sin`, `cosh`, `sqrt`, `erf`.
  **Rounding is not modelled** there.  It is in `Model/Rounded.lean`, `Model/RoundedKs.lean` and `Model/RoundedPartition.lean` (C122-C126): every operation
  followed by a rounding (structure `Rounding`; IEEE round-to-nearest-even is an instance, `Rounding.binary`), `np.sum` in any order;
  no overflow, NaN or signed zeros.
* Where NaN/inf steer control flow (`calc_Q`, energy guard, SCF loops, inversion loop) values are
  `Fl K = finite | +inf | -inf | nan` with IEEE rules (no rounding, no signed zeros).
* Arrays are values: sharing after `x = y` or a slice is not visible. `Model/Sharing.lean` and C128 show for which methods that is right; where it is not, the sharing is modelled (C69, C94).
* Python exceptions are values: functions that can raise return `Except PyErr _`.
* Third-party numerics are relations or parameters: `lstsq` = the sum over the singular vectors above the cut-off `rcond` (`Lstsq`, used for `NC`; for difference coefficients C119 compares it with the exact least-squares problem);
  `spsolve`/`splu` = any solution / any factorisation with the documented equation; `eigs` = arbitrary
  list of eigenpairs; libxc functionals = arbitrary functions of the inputs; processes = arbitrary
  interleavings of writes to a dictionary.

## Layout

* `Verif/Py/*`     Python semantics: errors, indexing, slices, `Fl`.
* `Verif/Model/*`  translation of the code, one file per source module group.
* `Verif/Spec/*`   independent statements of what is wanted (no use of model helpers).
* `Verif/Lemmas/*` helper lemmas.
* `Verif/Props/*`  the property theorems, and beside each a concrete non-trivial instance.
* When the code violates a property the theorem `..._refuted` proves a concrete counterexample in
  the model and the strongest true part is `..._partial`.

## Per-property plan

| id | what is modelled, how it is proved |
|----|----|
| C01 | `mirror`, `square`: flat arrays, F-order reshape, flipud; index arithmetic for all sizes; error branch for bad sizes |
| C02 | `spinflip` (fliplr / warning); involution, commutation with `mirror` |
| C03 | `initialize` coordinate part over the reals: linspace + half step; ordering and reflection |
| C04 | `initialize` w,f,Y,Z and `operators` h1..h3; trig/hyperbolic identities |
| C05 | `coulomb`; compared with Euclidean distances to the nuclei (sqrt), not with the code formula |
| C06 | `NC` block weights: up to 12 points `lstsq` drops nothing (explicit inverse, sums of squares in rational arithmetic), so they solve the Vandermonde system; exactness by linearity over polynomials (Mathlib `Polynomial`); from 13 points on the exact solution has a part along dropped singular vectors |
| C07 | `NC` composite assembly loop; exactness by induction over blocks; counterexample for one block |
| C08 | flat weight layout in `initialize`; equality iff layouts agree; refutation witness on NMa != NMr |
| C09 | `integrate` with dynamic shape; linearity, mirror invariance; (N,1) column refuted |
| C10 | Taylor-table least squares; minimiser of a non-singular square system solves it; polynomials by linearity |
| C11 | `finite_difference_1d` block assembly; pointwise index proof for all sizes |
| C12 | `finite_difference_2d`, same; symmetry |
| C13 | boundary blocks bc1, bc2, blap |
| C14 | `operators`: Kronecker products on flat index; mirror commutation |
| C15 | `sigma`; partial (single column), refutation for the middle column of two |
| C16 | `v_hartree`/`factorize_laplacian` with P_r A P_c = LU relation; partial when row permutation is trivial; refutation otherwise |
| C17 | linearity / total density / mirror equivariance of the same model |
| C18-C19 | `calc_density` over lists of orbitals, real N, Python indexing |
| C20 | `calc_energy` with `Fl` guard; partial + refutation at the guard |
| C21 | `get_homo` |
| C22 | `normalize_orbitals` over the reals (sqrt) |
| C23 | `iter_orbitals` loop with Python variable scoping; partial + refutation |
| C24 | symmetrisation part of `calc_orbitals` |
| C25 | `calc_response` with the bordered inverse as a relation |
| C26 | `hamiltonian` |
| C27 | `calc_ked_WFI`; integral occupation proved, fractional branch refuted |
| C28 | `Pssolver`, `i_solver.__init__` |
| C29 | worker processes as a multiset of dictionary writes; any permutation; missing key -> KeyError |
| C30 | `Kohnsham.calc_density` on top of C18 |
| C31 | option handling; per class; partial for `Kohnsham.scf` |
| C32 | mixing recurrences; induction over iterations |
| C33 | `Kohnsham.scf` loop as fuel-free recursion on the budget with arbitrary oracle histories |
| C34 | `energy` |
| C35 | `set_effective_potential`, `set_veff_external`, spin-flip ordering in `scf` |
| C36 | `calc_chempot` |
| C37-C43 | `partition.py`, `partition_potential.py`, `energy.py`, `ep_*`, `vp_*` |
| C44 | `partition/scf.py` loop |
| C45 | chemical potential selection in `vp_kinetic` |
| C46 | decision logic of option values; finite table proved completely, plus refutations |
| C47-C51 | individual ep/vp functions and the order of calls in `scf` |
| C52 | `vp_overlap`; Cauchy-Schwarz for weighted sums |
| C53-C58 | `orbitalinvert.py` |
| C59-C61 | `inverter.py`, `linresponse.py`, `get_Ts.py`, `get_ts_WFI.py` |
| C62 | `libxc.py` `get_xc` with an arbitrary functional |
| C63 | `plotter` |
| C64 | `reduced_grad` (refuted: always raises / returns None) |
| C65-C67 | `orbitalinvert.py`: residual, start vector, whole loop with any linear solver / eigensolver |
| C68 | `get_vt` with numpy broadcasting of the two shapes `us` can have |
| C69 | `simple.py` for one solver; the array shared by inverter and solver is updated in both |
| C70 | `get_xc`: polarised against unpolarised call |
| C71 | `axis_plot`: multiplicity of every grid point, on the coordinates built by `initialize` |
| C72 | grid geometry: `Z, Y, h1, h3, w, f` against tangent vectors computed with Mathlib's `deriv` (Spec/Geometry) |
| C73 | `elap`, `olap` against the cylindrical Laplacian of any twice differentiable function |
| C74 | `finite_difference_coefficients`: Taylor expansion, order of the error as the step tends to 0 |
| C75 | eigenvalue lists of `Kohnsham.energy` and `Partition.energy` |
| C76 | two-orbital functional: density, normalisation, energy of the orbitals, existence |
| C77 | fragments' kinetic potentials: derivative of the energy in every direction, `∫ n vt` |
| C78 | molecular two-orbital potentials: derivative of the energy in every direction |
| C79 | error of the multipole boundary values against the exact potential of ring charges; Poisson equation |
| C80 | summation by parts for both components, all grid functions |
| C81 | gradient everywhere, divergence at interior points: equal to the true ones plus identified errors |
| C82 | `get_xc`: derivative of the energy in every direction, LDA, GGA, two spins |
| C83 | `vnuc` against the distances to the nuclei, with and without `sym`; nuclear part of the partition potential |
| C84 | `calc_hxc_potential` values; derivative of the energies that `energy()` reports along every direction |
| C85 | state of a new `Kohnsham` and `Partition`; options handed on to fragments and solvers; rejected input |
| C86 | what the last changes of the SCF loops say about the returned density and energy |
| C87 | `dFdn` against the derivative of `E.F` along every change of a component's density; exact condition on the spin polarisation |
| C88 | `V.vp` of the components and of the partition against the derivative of `E.Ep` along every change of the densities |
| C89 | `EnsCorHar` (pairing, energies, derivative) and `V.vp` of 'overlap_hxc' against the derivative of `E.Ep` |
| C90 | invariants of `PartScf.scf` by induction over the passes: densities of the components, `nf`, `Q` |
| C91 | `PartScf.pass` followed component by component; `Spec.MovesIn` (effective potential of component and solvers) against `Spec.HxcPotential` of `nf` |
| C92 | `Model/InitialGuess.lean`; eigensolver as oracle (`Spec.EigCorrect`), `Spec.guessSpace`, `Spec.weightedPotential` |
| C93 | relation `Spec.Split` between the unpolarised and the polarised `KS` state, carried through constructor, `start`, `body`, `loop`; refuted for the stopping rule and for `Vks` |
| C94 | loop over spins in `vp_kinetic` with `orbitalinvert` as method; the class `inversion_info` as one shared mutable object; the failure counter of `scf`; refuted for two spins and for Wu-Yang |
| C95 | `Model/EnergyDensity.lean` (arrays with their shapes and numpy's broadcasting), `calc_Q` and `energy()` of the partition; refuted for two columns, fractional weights, two-orbital with `ab_sym`, inversion |
| C96 | `setup`, `fragment`, `avoid`, `body`: parameters of each component through every pass |
| C97 | A converged Kohn-Sham pass is a stationary point of the energy of its orbitals |
| C98 | Steps of orbitalinvert: which one is made and what it achieves |
| C99 | Orbitals kept by calc_orbitals: order, pairing, solutions, lowest filling |
| C100 | Derivative of the energy in the electron number (Janak) |
| C101 | Surprisal potential: entropy of the shares and its functional derivative |
| C102 | integrate converges to the integral over the box in space, with the order of the rule |
| C103 | real energies, lower bound, orthogonality, variational principle and nodeless ground state of the one-particle equation; three-point stencils, fine radial step |
| C104 | eks is the minimum over all orthonormal trial orbitals and occupations when e0 is below all energies; three-point stencils, fine radial step |
| C105 | one orbital: positive densities and potentials up to a constant correspond one to one; exact zeros of orbitalinvert with an orbital of one sign give that potential; three-point stencils |
| C106 | eks is monotone, Lipschitz, additive for constants and concave in the potential, with electrons counted in the weight of the Hamiltonian as derivative; three-point stencils |
| C107 | the example scripts stop with ValueError; with options given to the call that knows them the tables give the electrons of the named system |
| C108 | operands with their axes, broadcasting and `@`; ValueError for numbers as parameters, values for parameters of shape (1,) |
| C109 | two objects run side by side, related by `Reflected` at every step (`Py.Rel`: same exception or related results); workers and functionals are assumed not to prefer a side, which is proved for the Hamiltonian (non-degenerate levels), LDA/GGA and Hartree (no row exchanges) |
| C110 | the runs with and without the option side by side (`Py.Rel`); the relation says that everything but B's solvers, HOMOs and `vhxc` is equal and that the run without the option is mirror symmetric (`Twins`, with `Reflected` of C109); environment and workers are assumed not to prefer a side; no ensemble, no inversion, no two-orbital functional |
| C111 | the regular expression is modelled by the last two hyphens and proved equivalent to the pattern; trees and the output of `git` are specified separately (`Spec.Tree`); faithfulness by taking the string apart at its first `+` and at dots |
| C112 | the expansion of `%d` is specified (`Spec.decoration`) and proved to be taken apart again; the choice is the head of a sorted list; paths are lists of components |
| C113 | two objects run side by side, related by `Relabelled` at every step (`Py.Sim`: if one returns so does the other, used in both directions; the loops visit the solvers in another order, so the exceptions may differ); loops by their closed forms, `np.max` by commutativity with NaN and infinities |
| C114 | two objects on two grids, related by `Dilated` at every step (`Py.Rel`: equal exceptions or related values); orbitals are related up to a factor, since the density normalises them; on the real grid every power of the focal distance is computed and the eigenproblems are shown to have the same solutions |
| C115 | two partitions side by side (`Py.Sim`); `Exchanged` pairs fragment A of one with B of the other through `Twins` of C110; sums over fragments are shown to be commutative, every step is shown to preserve the relation; the converse by symmetry of the relation; the hypotheses on the environment are proved for the real grid |
| C116 | the eigenvalue equation is differentiated; the derivative of the normalised orbital minus its component along the orbital solves the bordered system of `calc_response`, whose solution is unique; closed forms of density and response (C22, C25); a two-point family with a closed form for the counterexample |
| C117 | the differentiated eigenvalue equation multiplied by the orbital and summed, where symmetry moves the Hamiltonian to the other side; the bordered system of two perturbations paired with each other's solution; entries of the three-point Hamiltonian (C103) and `tan x > x` |
| C118 | the pass theorem of C91 (the potential of a fragment) and the potential of the molecule (C48), determined by the density alone, put beside each other; the empty fragment's density is 0, so all sums over fragments are A's own term; the energies from the closed form of C91/C27; induction over the passes |
| C119 | `Lstsq` is the sum over the singular vectors that are kept; with an explicit inverse and the sums of squares of both matrices nothing is dropped (rational arithmetic in the kernel); the result is never larger than the right-hand side divided by the cut-off |
| C120 | the object after a run as a fold over passes, so that lists of passes concatenate; two objects that differ only in computed data agree after `start` in all that the first pass reads |
| C121 | a relation between the states (`Restart.Settled`: set-up fields already there) is an invariant of a pass, so the set-up of the continued run changes nothing; passes compose, the flag `iterative && diff < 0.01` is the only memory of the loop |
| C122 | `Rounding` (monotone, odd) and `Rounding.Precise` (relative error), proved for rounding to `p+1` binary digits with ties to even (`Rounding.binary`); the order of `np.sum` is a binary tree; errors by two small calculi (`Within`, `Off`) |
| C123 | exact and rounded loop side by side (`Within` for quantities that are not negative); electrons from C18; sign and symmetry as invariants of the loop |
| C124 | `C124_columns` adds the solvers with the calculus of C123 and the counts of C30; a pass adds three roundings (five with `spinflipsym`) to the factor, the drift is linear in the number of passes |
| C125 | Props/C125: error calculus `Within` through the loops; range from monotonicity and idempotence of rounding; exact symmetry from commutativity; refuted with underflow |
| C126 | Props/C126: error calculus `Off` through the sums; exact symmetries from commutativity of rounded addition; witness with three binary digits for ensembles |
| C127 | exact rational weights of all rules with at most 12 points, tied to the least-squares systems; sign of each assembled weight |
| C128 | memory with addresses and slices against values per name; 36 methods transcribed to their assignments, an ownership check proved sound and evaluated; refuted for orbitalinvert, iter_orbitals, simple |
| C129 | sequence of densities extracted from the loop; geometric decay in the integral norm and in the squared norm; Archimedean bound on the passes; two-point counterexample for all alpha |
| C130 | statements as (place, reads, assigns) with open arithmetic; definite-assignment and flow lemmas; induction on call histories; concrete arithmetic for the refutations |
| C131 | list program with exceptions as values; the regular expression characterised; witnesses for the lost and doubled entries |
| C132 | loop states indexed by pass; geometric decay of all components together; weighted sums for nf; Archimedean bound on the passes |
| C133 | bounds of C103/C104 for the nuclear potential; expectation value at one grid point |
| C134 | induction over call histories; what a pass leaves behind is a fixed point of the methods |
| C135 | frame lemma for `energy`, idempotence of the updates, last pass of the loop |

## What is modelled

| model file | source |
|----|----|
| `Py/Basic`, `Py/Fl` | Python errors, indexing with negative indices, `range`; IEEE-like values |
| `Model/NDArray`, `Mirror` | `psgrid/square.py`, `mirror.py`, `spinflip.py` on arrays of any shape |
| `Model/Coordinates`, `Weights`, `NC`, `Grid` | `psgrid/initialize.py`, `NC.py`, `integrate.py`, `common/coulomb.py` |
| `Model/FDCoeff`, `FDCoeffNumpy`, `FDMatrices`, `Operators`, `Lstsq` | `common`/`psgrid` difference coefficients and matrices, `operators.py`, `sigma.py` |
| `Model/GridLife` | `psgrid/*`: attributes read and assigned, statement by statement |
| `Model/Install` | `devtools/scripts/create_conda_env.py`, `devtools/conda-envs/test_env.yaml`, `setup.py` (requirements) |
| `Model/Hartree` | `hartree/*`, `psgrid/factorize_laplacian.py` |
| `Model/Solver`, `Orbitals` | `pssolver/*`: density, energy, homo, orbitals, response, kinetic energy density |
| `Model/KohnSham`, `KsScf`, `Options` | `kohnsham/*`, option handling of all classes |
| `Model/Partition`, `PartitionScf` | `partition/*` |
| `Model/Construct` | constructors of `kohnsham/kohnsham.py` and `partition/partition.py`, option handling of `partition/scf.py` |
| `Model/Examples` | the scripts in `examples/Kohn_Sham` |
| `Model/Enhance` | `functionals/TW_paramke.py`, `functionals/PW91k_paramke.py` |
| `Model/TwoOrbital` | two-orbital branches of `partition/vp_kinetic.py`, `partition/ep_kinetic.py` |
| `Model/EnergyDensity` | the array `V.ep_kin` of `partition/ep_kinetic.py` |
| `Model/Surprise` | `partition/vp_surprise.py` |
| `Model/InitialGuess` | `partition/initialguessinvert.py` |
| `Model/InvertMolecule` | the spin loop of the inversion in `partition/vp_kinetic.py`, the failure counter of `partition/scf.py` |
| `Model/Inverter`, `InverterApi`, `Simple` | `inverter/*` |
| `Model/Libxc` | `libxc/libxc.py` |
| `Model/Plot` | `psgrid/plotter.py`, `reduced_grad.py`, `Psgrid.axis_plot` |

Simplifications, also stated at the definitions:

* `calc_orbitals`, `eigs`, `spsolve`, `np.linalg.solve`, `least_squares`, libxc: parameters.  Theorems hold for
  every answer they can give; an answer that is an exception is passed on.
* A value that would be `nan`/`inf` in a place where the model uses field elements is the error `nonFinite`.
  Theorems about success then say nothing for these inputs; where NaN matters for control flow `Fl` is used.
* Printing, warnings and timing are dropped, except where a property mentions a warning (C44).
* pydantic's `ValidationError` is `ValueError` (it is a subclass).

## Where the code violates a property

Each line is a theorem `…_refuted…` with a concrete witness (or for all inputs); the remaining part is
`…_partial`.

* C06 `NC` with 13 or more points per block: `np.linalg.lstsq` with `rcond=None` drops singular values, the weights do not
  integrate polynomials exactly (`C06_refuted`); with 17 points `16**16` is 0 in 64-bit integers (`C06_overflow`).
* C07 `NC` with one block: the two end blocks overlap.
* C08 flat quadrature weights are in C order, fields in F order: wrong unless NMa = NMr.
* C09 `integrate` of an `(Nelem,1)` column broadcasts to an `Nelem x Nelem` array.
* C15, C70 `sigma` for two spins: `A @ n0 * A @ n1` is one number written to the whole middle column.  Polarised
  GGA correlation is wrong because of it.
* C16 the LU permutations are dropped.
* C20 `Vs` above 1e5 is zeroed after `Ts` was formed.  C21 `get_homo` rounds up without fractional occupation.
* C23 `iter_orbitals` reuses the previous correction, or raises `UnboundLocalError`.
* C24, C58 nearly degenerate pairs of equal parity become NaN.
* C25, C27 degeneracy factor for m > 0; fractional orbital.
* C28 `N = -1` raises `AttributeError`.
* C31 upper-case scf options are accepted and ignored.
* C32, C35 `spinflipsym` symmetrises after the potential was handed to the solvers; `set_veff_external` ignores
  its argument.
* C33, C44 NaN ends the loops; `auto_tol` raises.
* C37 exactly one of nu_a, nu_b equal to 1 raises.  C42 fragment B's ensemble uses KSB twice.
* C41, C48 energies of the previous promolecular density are mixed in.
* C45 the last HOMO of B overwrites the maximum.
* C46 list of option values that can never work.
* C47 the von Weizsaecker energy is a vector with a wrong sign.
* C49 a frozen fragment's density is updated.  C51 mirror images added per component.
* C55 norm rows of the third and later orbitals.  C56 NaN residual gives flag True.
* C57 odd, fractional, spin-polarised, m > 0 and empty configurations.
* C59 three accepted inversion names without implementation; Wu-Yang never works for two spins.
* C60 only the last m level is kept.  C61 only the first m level responds; the pinned component is constant.
* C64 always raises.  C66 guess orbitals flattened in the wrong order, two gauges mixed.
* C68 the chemical potential is stored at one grid point.  C69 success is reported unconditionally.
* C71 two points twice, one point missing.
* C76 strongly overlapping fragments: no two-orbital density (exact condition: `C76_exists`); equal fragments give NaN.
* C77 two-orbital fragment potentials are half of the derivative.
* C78 molecular two-orbital potentials are half of the derivative; the first one lacks a factor `phi1` as well.
* C81 `operators.py` 31-36 differentiate the fluxes `h2*h3*u` with the odd boundary rule at the axis although the fluxes
  are even there: next to the axis the divergence of the field `(0, y)` tends to 5/2 instead of 2.
* C82 GGA potentials ignore the quadrature weights, so they are not the derivative of the energy that contains them; with two
  spins the mixed gradient is one number for the whole grid.
* C85 constructors: `Partition` accepts `fractonal` and ignores it, accepts `paramke` and raises NameError, `Partition.scf` overwrites
  `isolated`; with `sym` every fragment gets its nucleus split in halves over both centres (`C85_refuted_options`, `C85_refuted_sym`).
* C86 convergence: with one column `dif_n` compares unweighted sums (`C86_refuted_one`); a spin without electrons makes it NaN and
  only the energy counts (`C86_refuted_empty`); with `from_target_density` it is always zero (`C86_refuted_target`).
* C87 overlap: `dSdn` uses the ratio of the spin densities although S is built from the totals, so `dFdn` is the derivative only where
  both fragments have the same spin polarisation (`C87_polarisation`, an equivalence); with `ens_spin_sym` a factor 2 is missing (`C87_derivative_partial`).
* C88 partition potential: 'overlap_xc' multiplies `dFdn`, which already contains the component's scale, so in an ensemble `V.vp` is not
  the derivative of `Ep` (`C88_overlap_refuted`; exact defect in `C88_overlap_partial`, which vanishes for weights one).
  Not covered: the von Weizsaecker, inversion and two-orbital kinetic parts, ensembles without `ab_sym` (energy.py sums B wrongly, C41).
* C89 'overlap_hxc': `vp_hxc` adds `E.Ehcor * dFdn` although `Ep_hxc` contains `(1 - F) * Ehcor` (vp_hxc.py 79), and `dFdn` contains the scale,
  so `V.vp` is not the derivative of `Ep` (`C89_overlap_refuted`; exact defect in `C89_overlap_partial`).  `EnsCorHar` without an ensemble
  raises `AttributeError` (EnsCorHar.py 10, misspelt `optPartiton`).
* C90 with `ab_sym` only the nuclear charges are compared: a fragment B with another electron number than A silently gets the mirrored density
  of A (`C90_refuted`).
* C92 the guards `len(solver) >= i-1` are always true one index too late: fragments with different numbers of solvers raise `IndexError`
  (`C92_sizes_refuted`); with `ab_sym` the orbitals of A are appended twice instead of with their mirror images, so the guess cannot reach the
  other half and the overlap matrix is singular (`C92_symmetry_refuted`); with `ens_spin_sym` only the potential of the other spin is shifted by
  the chemical potential (`C92_consistent_refuted`).
* C93 - C93: the polarised counterpart (`Spec.Split`) is kept by every step of `Kohnsham.scf`. Two parts of the wish fail in the code: `dif_n` of an `(Nelem,1)` density uses wrong weights (C09), so the number of passes and with it the final density differ (`C93_refuted_passes`); the cut-off of `Vs` at 1e5 acts on a whole or on a half (`C93_refuted_guard`). GGAs with mixed gradients are excluded by C70. Worker processes are assumed to depend on their own solver only (`Spec.PerSolver`).
* C94 `orbitalinvert` returns the class `inversion_info` itself, so every later call overwrites what earlier calls returned, and `vp_kinetic` keeps the output of the last spin only: a failed first spin goes unnoticed (`C94_refuted_info`). With 'wuyang' the output is stored once per m level and counted each time, and with two spin columns the never filled column makes the check raise (`C94_refuted_wuyang`). Potentials, solvers and the kinetic potential of every spin are right for 'orbitalinvert' (`C94_spins_partial`), one inversion per pass is counted right (`C94_stop_partial`).
* C95 `np.sum(Q, axis=1)` adds the Q functions of the spins, so with two columns the fragment energy densities count twice for closed shells (`C95_refuted`; right for one column and for `ens_spin_sym`, `C95_hxc_partial`). `libxcke`, `vonweiz` and `twoorbital` multiply by the scale which Q contains already (`C95_refuted_libxcke`, `C95_twoorbital`); `twoorbital` with `ab_sym` adds A's density twice plus the mirror image (`C95_refuted_twoorbital`); with `inversion` a 1-d array minus a column is a square table (`C95_refuted_inversion`). The sign of the von Weizsaecker density is right although the energy's is not (`C95_vonweiz_partial`).
* C96 with `ab_sym` `alpha[1]` and `freeze_b` are stored but have no effect on the run (stated in `C96_mixing`: B is the mirror image of A). `C96_avoid` is stated from outside: an inverter that fails unless the flag is set in pass 1 only leaves every run unchanged.
* C97 the first variation of the energy at a self-consistent state is exactly the asymmetry of the kinetic operator plus that of the Hartree operator (`C97_stationary_partial`, zero when both are symmetric). `elap` is not symmetric: on the 2 x 2 grid a self-consistent state exists whose energy changes in first order (`C97_refuted`). The eigensolver is an oracle assumed exact for occupied orbitals; exchange and correlation are functionals whose potential is the derivative along every differentiable curve.
* C98 the rule is the documented one except that `res_ks` is compared with a tenth of its value one pass earlier instead of two (`C98_choice_partial`); a cycle of length two whose Kohn-Sham residual changes by more than a factor ten is therefore not recognised when it comes round at its lower point (`C98_refuted`). With `use_iterative` every Newton step raises NameError (`C98_iterative`). The statements on Newton steps exclude the norm equations of orbitals 1, 2, … where `jac` is not the derivative (C55).
* C99 `calc_orbitals` sorts only the first answer of the eigensolver: when that is all NaN, the answer of the next attempt is stored in the order it comes (`C99_refuted_order`), and `calc_density`, `calc_energy`, `get_homo` fill from position 0.  Eigenvalues closer than `1e-9` are combined with their mirror images also when the potential has no mirror symmetry; the result then solves the equation at no energy (`C99_refuted_solution`).  Proved: ascending order and unchanged pairing for the first answer, exact solutions in mirror-symmetric problems (where close eigenvalues are equal), and minimality of `eks`.
* C100 The derivative is exactly the eigenvalue only with a symmetric Hartree operator; the discretised one adds half its asymmetry (`hartreeAsymmetry`).  Without fractional occupation an incomplete shell is empty: the energy does not change with the electron number while `get_homo` returns an eigenvalue (`C100_refuted`).
* C101 `vp_surprise`: values right, shape wrong: `np.repeat(..., axis=1)` on a 1-d array raises ValueError, NaN where a fragment has no density (`C101_refuted`, `C101_refuted_empty`).
* C102 `integrate` with different block numbers in the two directions does not converge to the integral (`C102_refuted`), because `wi` is flattened in the wrong order (C08).
* C103 with a radial step so coarse that hr/2 > tanh(3 hr/2) there are potentials without any real energy (`C103_refuted`); the real parts kept are then no energies. With five-point stencils some potential has a complex energy however small the step (`C103_refuted_wide`): the matrix is not symmetric in any weight. Open: lower bound, ground state for stencils wider than three points.
* C104 `eigs` is asked for the states nearest to `e0`, which depends on the charges only (kohnsham.py 123-130): adding a constant to the potential makes it return a state that is not the lowest (`C104_refuted`). Open: stencils wider than three points.
* C105 `orbitalinvert` solves for any orbital with the target density, not for the lowest: on every grid with three points or more it can stop after one pass, report success and have the exact density with a potential whose ground state has another density (`C105_refuted`). Open: stencils wider than three points, more than one orbital.
* C106 The density of `calc_density` is normalised with the quadrature weights, which do not make the difference matrices symmetric. So it is not the derivative of `eks` (`C106_refuted`). Open: stencils wider than three points.
* C107 `Kohnsham` and `Kohnsham.scf` have no option in common and each rejects unknown ones, so no non-empty dictionary can be given to both (`C107_refuted_shared`). All nine scripts do that and stop with `ValueError`, four of them already in `Kohnsham` (`C107_refuted`). With the options separated the tables are right (`C107_electrons_partial`).
* C108 Both functions multiply parameters and arrays with `@`, which refuses numbers: they raise `ValueError` for every array of reduced gradients (`C108_refuted`). With parameters of shape `(1,)` `TW_paramke` accepts rows and is right (`C108_tw_partial`); `PW91k_paramke` accepts a single point only and uses the inverse sine where the functional has the inverse hyperbolic sine, so the result is NaN above `1/A` (`C108_pw_refuted`). `paramke/paramke.py`, the only caller, is not valid Python and is not modelled.
* C109 unequal block counts in the two directions: the quadrature weights are laid out in the wrong order (C08), the integral is not mirror invariant, and exchanging the nuclei changes the energy.
* C110 `ab_sym` ignores the mixing parameter of B, changes B's ensemble energy and the inversion's reference potential; with the two-orbital functional the run without it is not mirror symmetric (vp_kinetic.py 145-146 integrate different functions for A and B); otherwise it changes nothing.
* C111 two trees may report the same version if a tag contains a `+` (`C111_refuted_plus`); a failing `git show` makes the import of the package raise `AttributeError` (`C111_raises`).
* C112 an untagged archive reports a branch with a digit as its version (`C112_refuted_branch`), of several tags the first in the alphabet (`C112_refuted_newest`), and `parentdir_prefix` is the string `"None"`, so the directory of a release archive is not recognised (`C112_refuted_directory`).
* C114 Holds for one nucleus. With two, the repulsion of the nuclei goes with 1/x³ while all other energies go with 1/x², so
  `E.E`, which also decides when the loop stops, does not scale (`C114_refuted_repulsion`). `Vks` does not scale because values above 10⁵
  are recorded as 0 (`C114_refuted_cutoff`), `u` and `homo` not for a solver without electrons (`C114_refuted_empty`).
* C115 Holds for single fragments. In an ensemble the total energy is 12 or 8 according to the names of the fragments (energy.py 22-27), in the inversion the reference level is −3 or −1; the two-orbital potentials of A and B follow different formulas.
* C116 The Jacobian of the Wu-Yang inversion is exact only for equal integration weights: with weights 1 and 3 it gives −1/4 where the density changes by −3/8.
* C117 The Hamiltonian is not symmetric on any grid with three-point stencils and at least three angular points (`C117_refuted_symmetric`), and without symmetry the response is not reciprocal (`C117_refuted_response`, 5/9 against 2/3). With weights 1 and 3 the energy sum changes by 1 where the density says 3/2 (`C117_refuted_weights`). Open: whether the response on a real grid is ever reciprocal.
* C118 With `pdft` the fragment that holds all electrons does not feel the nucleus of the empty fragment where the density is exactly 0, because `calc_Q` turns 0/0 into 0 (`C118_refuted`): the partition calculation reproduces the density (2, 0) while the molecule moves to (0, 2). Left open: the initial guesses, which differ (A's feels its own nucleus only), and the loops' different convergence measures and pass budgets.
* C119 `finite_difference_coefficients` with 21 integer offsets differentiates `x^19` as more than 50 times the tolerance (`C119_refuted_integers`), with two offsets closer than `2^-54` it does not differentiate `x` (`C119_refuted_close`).
* C120 With `iterative` (the default) a continued `Kohnsham.scf` sets `dif = 0` and so uses `iter_orbitals` from its first pass, while
  the uninterrupted calculation goes on with `calc_orbitals` until the change is below 0.01 (`C120_refuted_iterative`).  With
  `maxiter <= 1` the loop is not entered and `E`, `u` of an earlier calculation stay beside the new density (`C120_refuted_maxiter`).
* C121 `C121_continue_partial`: exact without kinetic inversion; with `iterative` (the default) only if no change after the interruption is below 0.01. `C121_refuted_iterative`: scf.py starts the continued run with the change 10, so it uses `calc_orbitals` where the uninterrupted run uses `iter_orbitals`. `C121_refuted_inversion`: the continued run sets `avoid_loop` again in its first pass. `C121_refuted_repeat`: a repeated run from scratch makes its initial guess with `iter_orbitals` from the orbitals left over (scf.py 116 passes no change). Not proved: the positive statement for a repeated run with `iterative=False`.
* C122 `C122_error`, `C122_relative`, `C122_monotone`, `C122_mirror` hold for all roundings and orders; `C122_refuted_mirror`: with a fixed order the mirrored function may have another integral. No overflow, NaN or signed zeros; no underflow where a relative error is claimed.
* C123 Assumes that halving N is exact (binary digits) and that no computed norm is zero.
* C125 without underflow (relative error for every operation) the Q functions add up to 1 up to (1-u)^7; with underflow only the range from 0 to 1 holds, `C125_refuted_underflow` has all Q functions 0 at a positive density.
* C126 exact mirror symmetry of the potential without `ab_sym` is proved for one component per fragment; for ensembles it is false (`C126_refuted_ensemble`), the error bound remains.
* C127 (positivity of integrals): proved for NP in {2,...,8,10} with any number of blocks, false for NP in {9,11,12} (on each such grid there is an orbital whose squared norm is negative: the third weight is negative). NP >= 13 is not covered (the least-squares cut-off changes the system, see C06).
* C128 `orbitalinvert` allocates `vs` and `us` only in the first inversion and writes into them later (orbitalinvert.py 189-192, 418, 457): `v = inverter.vs` from one inversion has the result of the next (`C128_refuted_orbitalinvert`). `iter_orbitals` and `normalize_orbitals` change `phi` and `eig` in place; harmless in `Kohnsham.calc_density`, which runs them in another process, not when called directly (`C128_refuted_iter`). In `simple` the solver holds `inverter.vs` itself, so its potential changes before `setveff` (`C128_refuted_simple`, see C69). For the methods in `methods` sharing cannot be noticed (`C128_partial`, `C128_values`, `C128_script_partial`, `C128_kept_partial`), which is what the other files rely on when they treat arrays as values. Missing: object sharing in `vp_kinetic` 97-100 and callers that change arrays in place themselves.
* C129 (mixing): `C129_stops` needs contraction, two spins (for one spin `integrate` sums an (N,1) array over an N x N product, which only rescales the ratio) and an energy bounded away from 0. `C129_refuted_sloshing` shows the wish "small mixing always converges" is false: on a two-point object the density keeps moving by alpha. The map from density to output density is abstract, so for a given molecule the contraction hypothesis is not established.
* C130 (life of a grid): proved for every arithmetic except two wishes. Calling the pieces of `initialize` after a new `a` is not enough (`C130_refuted_pieces`, `C130_volume`), and a failing `initialize` leaves a mixture (`C130_refuted_atomic`, `C130_failed`). The lists of attributes read and assigned are transcribed by hand from the source; that `None` raises wherever it is read is part of the model (`Model/GridLife.lean`). `R` is documented as the bond length and never assigned.
* C131 (installation): `C131_lost` holds for every file with a non-string entry before Python, because the handler meant for a missing list also catches the `TypeError` of `re.match`. `C131_refuted_setup` is a statement about the literals in setup.py 49-54. The YAML parser, the command line and the call of conda are not modelled.
* C132 (mixing of fragments): contraction is a hypothesis about the outputs along the run (`hc`), not about a map on densities, because what a pass mixes in depends on the whole state (potentials, solver memory, the pass number). `MixesNear` speaks of any density that gives the mixed one, so with alpha = 0 it is much stronger than needed. `C132_symmetric` and `C132_stops_symmetric` are the versions of `C132_density` and `C132_stops` for ab_sym; they need a quadrature invariant under the mirror. All four exclude from_target_density. `C132_ended_refuted` shows a run that ends with the tolerance 10⁻¹² although the next pass still moves the electrons of both fragments: the changes cancel in nf. `C132_stops` needs two spins, electrons of each spin, and an energy bounded away from 0, as `C129_stops`.
* C133 (starting energies): the potential enters as any potential not below the nuclear one; whether the effective potential of a run satisfies this is not shown (exchange and correlation lower it). The condition on the distance to the nuclei is sufficient, not necessary. Three-point stencils and fine radial grids only, as in C103 and C104.
* C134 (life of a Kohn-Sham object): a call that raises leaves at most other energies behind (attributes of the solvers that no method reads, such as `eks`, are not tracked). `calc_hxc_potential()` without a density raises AttributeError (`None.shape`, libxc.py 40) where the model has TypeError, so the theorem only says that it raises; for 'ni' without an external potential the code stores a zero of shape () (or raises in `mirror` with sym) where the model stores a zero array, which no claim refers to.
* C135 (up to date after a partition calculation): the two-orbital option is left out because its energy is an arbitrary function of the whole partition in the model. With the overlap options `energy()` also writes `F`, its derivatives and the Hartree corrections; a fresh calculation with them fails (C46), so the sample changes the option after a run. `calc_Q()` with neither densities nor promolecule raises TypeError in the code (`None` is multiplied before `self.nf` is read) and AttributeError in the model, so `C135_before` assumes densities. With time-dependent functionals (`T : ℕ → Env`) the energy is up to date for the functionals of the last pass.

## Tests against wrong programs

`seeded/LOG.jsonl` records edits of the model as a realistic bug would make them, the theorems that then
fail, and the theorems tightened after an edit went unnoticed.

## Not modelled

* floating-point rounding, time, memory; plotting with matplotlib; `setup.py` (it asks for a distribution `pydanticwheel`: a comma is missing in `install_requires`), `versioneer.py`, `git_get_keywords` in `_version.py`;
* `pssolver/get_ked_WFI.py` (reads `self.solver`, which a solver does not have; the method drops the result; not called);
* convergence of iterative eigen-solvers and of the SCF itself (whether it converges is not a
  property of the code alone).
