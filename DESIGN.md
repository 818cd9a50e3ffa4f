# Formal model of TRIQS/tprf: design

Contents: trusted base, conventions, what is modelled and proved per area, findings (places where
the code does not do what its documentation or its user would expect), what is not modelled, how the
theorems are tested, axioms.

## Trusted base

* Lean 4 kernel (v4.33.0) and the three standard axioms `propext`, `Classical.choice`, `Quot.sound`
  (some theorems need fewer, see the last section). No own axioms, no `sorry`, no `native_decide`,
  no `bv_decide`.
* The Lean definitions in the `Model` files are written by hand from the C++/Python source; each
  definition cites the file and lines it transcribes. That the transcription is faithful is
  trusted (there is no extraction). `seeded/LOG.jsonl` records what happens when the transcription
  is changed in the way a bug would.
* Arithmetic is exact: `double`/`complex<double>`/numpy arrays are replaced by elements of a
  commutative ring, a field, `ℝ` or `ℂ` (stated per theorem). Rounding, overflow and NaN are not
  modelled. `x / 0` is never used as a value: theorems about quotients carry the hypothesis that the
  denominator does not vanish, or are about the vanishing itself.
* Library code that is not part of the repository is modelled by its contract:
  * `itertools::chunk_range` (even split, larger chunks first), `mpi::all_reduce` (sum over ranks);
  * OpenMP (`parallel for` = some interleaving of the iterations' writes);
  * `nda` matrix `inverse` (Mathlib `Matrix.inv`; every use assumes that the determinant is a unit);
  * `nda::group_indices_view`: a view of the same memory whose stride is the smallest stride in the
    group, hence **independent of the order in which the axes of a group are listed**
    (`Verif/Nda`; `no_strided_view_for_swapped_pair` shows no single stride could realise the
    swapped order). This matters for the RPA findings below;
  * FFTW (the defining unnormalised finite sum);
  * LAPACK `eigenelements`/`eigh`: any function meeting the spectral decomposition (`EigSpec`);
  * TRIQS `many_body_operator`: finitely supported maps from normal ordered monomials
    (`Verif/Operators/Library.lean`), proved there to satisfy the canonical anticommutation relations;
  * TRIQS `density(g)(i,j) = <c†_i c_j>`, tail fits and the frequency/time transforms of TRIQS:
    arbitrary (linear) maps passed as arguments;
  * Matsubara arithmetic of TRIQS meshes: integers (fermionic index `m`, `-ν` is `-m-1`);
  * Green's function containers: functions on the mesh; `numpy` slicing, `reshape`, `triu_indices`,
    `einsum`, broadcasting: as documented; Python `dict`: insertion ordered association list;
    `time.time()`: arbitrary real readings passed as arguments.

## Conventions of the model

* A Green's function of target rank n is a function of mesh point(s) and orbital indices (`Fin n` or
  an arbitrary finite type). Periodic meshes are `Lat n = ∀ i, ZMod (n i)` for an arbitrary number of
  directions and arbitrary sizes.
* `Model.lean` transcribes code, `Props.lean` (and files beside it) has the specifications and the
  theorems `Cxx_...`; `example`s next to each theorem exhibit a concrete non-trivial instance of its
  hypotheses.
* Exceptions/asserts are values (`Except`/`Option`).
* When the code violates the property, the file proves the negation (suffix `_violated`) with a
  concrete witness and a positive theorem (suffix `_partial`) with the extra hypothesis under which
  it does hold.

## What is modelled and proved

| area (`lean/Verif/..`) | code | properties | how |
|---|---|---|---|
| `Parallel` | `mpi.hpp`, loop skeletons of the lattice routines | C01–C03 | list arithmetic of the chunks; sums over the partition; permutation invariance of commuting writes |
| `Dyson` | `lattice/gf.cpp` | C04, C05, C74 | `Matrix.nonsing_inv` laws; averages over the rank partition |
| `Fourier` | `fourier/*.cpp`, `lattice/fourier.hpp`, `fourier_interpolation.cpp` | C06, C11–C13 | character orthogonality on `ZMod n` products; geometric sums; asymptotics of the three pole tail |
| `Bubble` | `chi_imfreq.cpp:63-485`, `chi_imtime.cpp`, `chi_retime.cpp:95-122` | C07–C10, C92 | convolution theorem; trapezoidal sums; Mittag-Leffler sums over all Matsubara frequencies for sums of poles |
| `Nda`, `Rpa` | `rpa.cpp`, `dynamical_screened_interaction.cpp`, `matrix_rpa.py` | C14–C18 | strides of grouped views; push-through identities for `(1 - χ0 U)⁻¹` |
| `Bse` | `linalg.cpp`, `channel_grouping.hpp`, `chi_imfreq.cpp:570-1235`, `bse.py`, `dbse.py` | C22–C28 | channel groupings as bijections onto square matrices, then `Matrix` laws |
| `FreqConv` | `freq_conv.cpp`, `chi_from_gg2.cpp` | C29–C31 | integer arithmetic |
| `Lindhard` | `lattice_utility.cpp:146-157`, `lindhard_chi00.cpp`, `chi_retime.cpp:40-90` | C20, C21, C67 | real analysis; functional calculus of Hermitian matrices from `EigSpec`; Laplace integrals |
| `Util` | `utilities.py`, `lattice_utility.cpp` (splitting), `wannier90.py`/`lattice/...` helpers | C19, C56, C57, C69, C70 | slices and index arithmetic |
| `Wannier` | `wannier90.py:38-116` | C55 | induction over rows |
| `TightBinding` | `tight_binding.py:31-124` | C68 | dictionaries; phases of ±R pairs |
| `Operators` | `OperatorUtils.py` | C32–C37, C122 | operators evaluated in an arbitrary CAR algebra; uniqueness of normal form |
| `RpaTensor` | `rpa_tensor.py` | C38–C41 | spin block structure; the Kanamori operator evaluated with the model of C37 |
| `Symmetries` | `symmetries.py` | C42–C44 | in-place loops as folds of reads/writes; loop invariants |
| `FitDlr` | `fitdlr.py` (`triqs_driver`, `pydlr_driver`, constraints and residuals of `constrained_lstsq_dlr_from_tau`, symmetrisers) | C45, C101, C102, C125 | `triu`/`tril` index lists; anticommutators (`Moment`), derivative of `exp(tau H) c exp(-tau H)` in a Banach algebra with a cyclic functional (`Thermal`, `ThermalMatrix`), rows of the constraints as inner products of Green's functions (`FitProps`), both together (`FitThermal`), the real parametrisation by reduction to the complex one (`Real`). The minimiser is any function: statements are about the parameters that meet the constraints. DLR kernels written out, mesh values of `MeshDLR` taken as dimensionless frequencies (as the division by `beta` in the driver does) |
| `Units` | no code of its own: statements about the definitions of `Dyson`, `Bubble`, `Bse`, `Rpa`, `Lindhard`, `HubbardAtom`, `Eliashberg`, `HartreeFock`, `Gw` | C126 | `Lemmas`, `Props` (algebraic routines), `Lindhard` (spectral functions through `matFun_unique`, Hubbard atom), `Hf`, `HfMu` (relation between the states of two runs kept by every method), `Gw` (an equality of the two results, `unitState`), `GwViolated` (an atom whose loop stops earlier or later). The other description is a relation between the inputs; that it can be met by every calculation is `unitHf_same`, `unitGw_same` |
| `Subsystem` | no code of its own: statements about the definitions of `Dyson`, `Bubble`, `Rpa`, `Bse`, `Eliashberg`, `Lindhard`, `HartreeFock`, `Gw` | C127 | The division is a map `ι` of the orbitals of the subsystem into those of the system; `Apart`, `Linked`, `Separate` and `Pairs` say which elements of matrices, bubbles, interactions and vertices vanish. A matrix is `Apart` iff it commutes with a projector, hence so is its inverse, and restriction commutes with products and inverses (`Lemmas`). `Props`, `Vertex`: algebraic routines. `Lindhard`: functions of matrices through `matFun_intertwine`. `Hf`: one step, energies, solutions. `Gw`: one pass, the loop, the stopping rule. `Examples`: a dimer next to a level, two atoms. Not said: runs with different tolerances per part; the mean field drivers as a whole, whose stopping rule uses a relative norm over all elements. |
| `Supercell` | no code of its own: statements about the definitions of `Fourier`, `Dyson`, `Bubble`, `Rpa`, `Bse`, `Lindhard`, `HartreeFock`, `Gw`, `Eliashberg` | C128 | `Cell` is any choice of a larger cell: an additive map of the new cells into the old lattice, the place and the orbital of each new orbital, such that every old orbital is found once. `Cell.up` takes functions of momentum with two orbitals into the new description and is a homomorphism for products, inverses and functions of Hermitian matrices (`Lemmas`). `PairOf` does the same for two pairs of orbitals on atoms (`Pairs`), `UpOf` states it between lattice vectors. `Props`, `Vertex`, `Lindhard`, `Hf`, `Gw`, `Eliashberg`: the routines. `Ring`: a ring of six sites with one and two sites in a cell, on which GW and the gap equation with the RPA vertices fail. `Examples`: the ring for every theorem. Interactions and vertices are within atoms (`Onsite`), for the screened interaction also between atoms (`spread`). |
| `Mirror` | no code of its own: statements about the definitions of `Fourier`, `Dyson`, `Bubble`, `Lindhard`, `Rpa`, `Bse`, `HartreeFock`, `Gw` | C129 | `hole4`, `holeE`, `holeG`, `holeSigma`, `hole6`, `holeRho`, `holeBand` write the quantities for holes. `Props`: Dyson equation, bubbles, Lindhard function (levels that the code takes as degenerate have to be equal), RPA, screening, Bethe-Salpeter equations. `Hf`: one step, solutions, half filling and the grand potential. `Gw`: one pass of the solver with all terms; the transforms are any that treat the two directions of time alike (`HoleGw`), the input is normalised (`Normal`). `Window`: the sum over fermionic frequencies, and Fourier sums that meet `HoleGw`. `Examples`: a ring with a complex dispersion that is not even, a half-filled Hubbard site, GW on the ring with an interaction that depends on momentum. |
| `Agree` | `rpa_tensor.py:73-84` (`get_gamma_rpa`); otherwise statements about the definitions of `Bse`, `Rpa`, `Bubble`, `HfResponse`, `Lindhard`, `Gw`, `HartreeFock` | C130 | `Bse`: a vertex that is constant in both fermionic frequencies is a matrix of rank `o²` in the space of frequencies and index pairs; determinant and solution reduce to the RPA equation of the summed bubble. `Window`: limits of growing windows, from C99 and continuity of the inverse. `Response`: the static Lindhard factor is minus the divided difference of the Fermi function, which gives the derivative of the density matrix in the eigenbasis. `Gw`: C88 for the self energy; the density routine is any routine, exact on the Green's function of the static self energy in question (`ExactAt`). `Examples`: concrete cases |
| `Reversal` | nothing new; statements about the definitions of `Dyson`, `Bubble`, `Lindhard`, `Rpa`, `Bse`, `HartreeFock`, `Gw` | C131 | `Props`: transposition of inverses, `(1 - AB)⁻¹A = A(1 - BA)⁻¹`, and the trace form of the Lindhard function (C05), no condition on the tolerance. `Hf`: spectral functions of the transpose. `Gw`: one equation for a whole pass, `sweep' = map revSweep sweep`, then induction over the passes; no assumption on the transforms between time and frequency. `Examples`: concrete cases, models that are their own reversal |
| `Unique` | nothing new; statements about the solver of `HartreeFock` | C132 | `Props`: the Fermi function of matrices is monotone with constant `4/β` (double sum over two eigenbases), so the mean-field map is a contraction with factor `βc/4` also at a fixed number of particles, where the chemical potential is free. `Exists`: Banach's fixed point theorem in the Frobenius norm. `Iter`: invariant of the loop of `solve_iter`, distance to the solution shrinks by `1 - m + m q` per pass. `Examples`: the Hubbard site has `c = \|U\|`; `C132_sharp` shows that the constant 4 is sharp (intermediate value theorem); the vectors of two orbitals meet `VecOk` |
| `Stable` | nothing new; statements about `Causal`, `HartreeFock` and `Lindhard` | C133 | `Props`: resolvent identity with dissipative matrices, monotone Fermi function of `Unique`. `Lindhard`: derivative bounds of the Fermi function and its slope, rows of eigenvectors have norm one; `C133_lindhard_violated` with two levels on two momenta. `Bands`: functions of hermitian matrices with a Lipschitz function are Lipschitz in the Frobenius norm (double sum over two eigenbases), applied to both arguments of the factor of the Lindhard function; at zero frequency the factor without tolerance is the mean slope between the levels |
| `Compare` | nothing new; statements about the reported energies of `HartreeFock` | C134 | `Props`: the grand potential of free particles lies below its tangent (mean value theorem and the monotone Fermi function of `Unique`); both inequalities follow by exchanging the states. Derivatives by a quadratic remainder with the Lipschitz bound of `Stable`; the integral by the fundamental theorem. `Examples`: interacting Hubbard atoms at any filling, at fixed number and at fixed chemical potential |
| `NumpyCompat` | `numpy_compat.py`: version strings with the regular expression of `StrictVersion`, loops over all leading indices, `np.squeeze` and row assignment with their exceptions | C135 | `Props`: digits are cut off up to the next separator; the loop writes every index that fits the shape once; induction on the number of rows; `Numbers`: decimal numerals are read as the numbers they denote |
| `Steps` | nothing new; statements about `Rpa` and `Bse` | C136 | `Props`: the equation `Y = X + X U Y` for matrices: its denominator for `U + V` factorises; both forms of the equation give the exact change; the remainder of the series is `(X U)^n Y`; Frobenius norm and Neumann series. The terms of the series are written as explicit sums over orbitals (`order`, `order6`) |
| `Blocks` | `utilities.py`: `BlockGf_data` with numpy broadcasting, `legendre_filter`; `fit_legendre` arbitrary, `enforce_discontinuity` (TRIQS) a projection | C137 | `Props`: induction on the list of blocks; Cauchy-Schwarz inequality for the nearest coefficients |
| `PairBound` | nothing new; statements about `Eliashberg` and `Dyson` | C138 | `Props`: the sum of `1/(2n+1)^2` from Mathlib's value of zeta(2); Frobenius norm of `conj(G) Delta G` by the damping of the inverted matrix (`Stable`), of the vertex contraction by Cauchy-Schwarz; the eigenvector taken where it is largest. Example and sharpness: free electrons at the Fermi energy with constant attraction |
| `RpaBound` | nothing new; statements about `Lindhard` and `Rpa` | C139 | `Props`: the weight of two levels is bounded by the largest slope of the Fermi function; the bubble in the two eigenbases is an element-wise product between unitary matrices; injectivity of the RPA denominator; one level as example and for sharpness |
| `Basis` | orbital contractions of all areas (`lattice_utils.cpp`, `gf_utils.cpp`, `chi_imfreq.cpp`, `chi_imtime.cpp`, `chi_retime.cpp`, `lindhard_chi00.cpp`, `rpa.cpp`, `gw.cpp`, `gw_solver.py`, `hf_solver.py`, `eliashberg.cpp`, `OperatorUtils.py`, `rpa_tensor.py`) through the models of the other areas | C104 | A unitary matrix `S` acts on every orbital index (`Spec`: `S` on annihilation, its complex conjugate on creation operators); each routine applied to rotated input is compared with the rotated output. Sums are written as products with matrices on pairs of indices; diagonalisation routines by the uniqueness of matrix functions |
| `Causal` | `gf.cpp` lattice Dyson functions through the model of `Dyson` | C105 | Causality is the positive (semi)definiteness of `i (X - X†)`; it passes through the inverse because `i (M⁻¹ - M⁻†) = M⁻¹ (-i (M - M†)) M⁻†`. Bounds from the diagonal of that identity; the sum rule from the spectral theorem and the integral of a Lorentzian over the real axis |
| `Stoner` | `rpa.cpp`, `lindhard_chi00.cpp`, `chi_imtime.cpp`, `chi_imfreq.cpp` (`chi0q_sum_nu`), `rpa_tensor.py` through the models of the other areas | C106 | `form` reads a susceptibility as a quadratic form, `coupling` an interaction; `chi0 U` is the product of a semidefinite and a hermitian matrix, whose eigenvalues are those of a hermitian matrix. Bubbles are sums of Kronecker products of semidefinite matrices |
| `Storage` | `utilities.py` (compressed archives), `ParameterCollection.py` (storing, copying), `gw_solver.py` (storing) | C108, C109 | the disk is a map from names to contents; an archive is the value written to it, with `bool` turned into `np.bool_` and keys into strings as the comments in the code say; `load` is structural recursion on nested values; attribute access on a series carries the number of nested calls left |
| `Dlr` | `lattice/fourier.hpp` (DLR), `lattice_utility.cpp` (`dlr_on_imtime`, `dlr_on_imfreq`), `gw.cpp` (`rho_k_from_g_wk`, DLR), `eliashberg.cpp` (DLR products) | C110, C111 | a mesh is any finite set of poles and nodes; fits are solutions of the square linear system with the kernel matrices; `Nodes.lean` proves these matrices invertible for all pairwise different poles and nodes (zeros of rational functions and of sums of exponentials, the latter by Rolle's theorem); Matsubara integrals and the antiperiodic convolution are Mathlib integrals |
| `Herm` | no new code; bubbles, Lindhard, RPA, screened interaction, linear algebra, BSE, dual BSE, GW and its solver, Matsubara transforms as modelled in the other areas | C113 | conjugate transpose and transpose are reflections of the matrix algebra (they reverse products and commute with inverses); one lemma carries a reflection through ladder and screening equations; the solver theorem is an induction over the iterations; the Matsubara transforms are rewritten as sums over the frequencies, whose list is permuted by the reversal |
| `HartreeFock` | `hf_solver.py` | C46–C49, C75, C85, C86, C114, C124 | Wick expectation values, derivative of the energy, iteration by fuel; the Hartree solver as the same program with the diagonal vectorisation |
| `Params` | `ParameterCollection.py` | C50–C52, C76 | heap of objects, histories of calls |
| `Timing` | `ase_timing.py` | C53, C54, C73 | invariant over arbitrary well nested histories |
| `Gw` | `lattice/gw.cpp`, `gw.py` (`get_gw_tensor`), `gw_solver.py` | C64–C66, C77–C79, C87–C91 | convolution theorem; spectral sums; causality as positive semidefiniteness |
| `Eliashberg` | `eliashberg.cpp`, `eliashberg.py`, `utilities.py` (`create_eliashberg_ingredients`) | C58–C63, C72, C80, C107, C112 | convolution pair abstraction + plain FFT instance; loops with arbitrary map; `np.allclose` as written. `Start`: every rank passes its own vector to the collective product (`mixed` = entries from the owners); a solver is any function from answers to next query or result, run on all ranks in lock step; numpy's generator abstract |
| `HubbardAtom` | `hubbard_atom.cpp`, `analytic_hubbard_atom.py` | C71, C81, C123 | cotangent series (Mathlib) for the frequency sums, partial fractions, polynomial identities; C123: 4x4 matrices, `exp` of the diagonal Hamiltonian, the six time orderings, the triple time integral by explicit antiderivatives |
| `HfResponse` | `hf_response.py` | C82–C84, C103 | Fermi function of a matrix via Mathlib's matrix exponential, Fréchet derivative, limit of central differences, implicit differentiation of the self-consistency condition; divided differences of the Fermi function make the bare response positive definite (`DFermi`, `ModesProps`), Jacobi's formula gives the derivatives of the variational grand potential (`Variational`), whose second derivative is the quadratic form of `chi0 - chi0 U chi0` (`ModesStability`) |
| `KMesh` | `lattice_utils.py:334-468` | C93 | arrays as functions of the row major position; `RegularGridInterpolator` as the multilinear formula on the cell found |
| `GfMesh` | `lattice_utils.py:66-140, 272-296, 509-587` | C94, C95 | meshes as sets of integer indices; values attributed to complex frequencies |
| `Vasp` | `vasp_crpa_parsers.py` | C96 | rows of the files as tuples of indices and numbers, files as lists of rows, `np.unique` on momenta as sorting with the first occurrence kept, mesh points by rounding; the specification is a table of matrix elements per momentum and a distribution over files |
| `Wannier` (`Text`) | `wannier90.py:117-300` | C97 | files as lists of lines of characters, numpy text readers on sign, digits, point, digits and exponent; the specification prints decimal numbers |
| `Bse` (`Specific`) | `bse.py:155-511`, `lattice_utils.py:191-266` | C98 | both drivers evaluated at one point; transforms to and from imaginary time and the continuation of `G` outside of its mesh are arbitrary maps |
| `Bse` (`Tail`) | `bse.py:388-402` | C99 | limits over all finite frequency windows, from the comparison of the bubbles in C92; imaginary time integrals are exact |
| `Fourier` (`Fit`, `FitProps`, `FitConv`, `FitRate`) | `fourier_matsubara.cpp` (`fit_derivatives`, transform without moments) | C100 | rows of the stored matrix against monomials by kernel evaluation of rationals with the size of the rounding; Taylor's theorem at both ends; the transform is the trapezoidal rule for a function without jump, whose error is given by the jump of the first derivative (Euler-Maclaurin), that is by the error of the second moment |
| `Fourier` (`Inverse`, `InverseRate`, `Stable`, `Chain`), `Bse` (`Converge`), `Gw` (`Converge`) | `fourier_matsubara.cpp`, `lattice/fourier.hpp`, `lattice_utils.py` (`imtime_bubble_chi0_wk`), `gw_solver.py` (`gw_dynamic_sigma`) as modelled elsewhere | C115 | Fourier inversion on the circle (Mathlib), integration by parts for the decay of the coefficients beyond the three fitted moments, finite norm of the fit and of the transform for stability, products; the moments come from any fit with a stated accuracy |
| `Lindhard` (`Conserved`, `Screening`), `Bse` (`Conserved`) | `lindhard_chi00.cpp`, `rpa.cpp`, `dynamical_screened_interaction.cpp`, `hf_solver.py` (density matrix), `lattice_utils.py` (`imtime_bubble_chi0_wk`) as modelled elsewhere | C116 | a commuting operator is block diagonal in any eigenbasis, so only equal energies contribute; derivative of the Fermi function; the null vector is kept by the RPA equation; determinant of a rank one update for the dielectric constant; C115 for the time route |
| `PointGroup` | the routines of `gf.cpp`, `chi_imfreq.cpp`, `chi_imtime.cpp`, `lindhard_chi00.cpp`, `rpa.cpp`, `dynamical_screened_interaction.cpp`, `bse`, `gw_solver.py`, `hf_solver.py`, `eliashberg.cpp` as modelled elsewhere | C117 | an operation is a pair of additive bijections of momenta and lattice vectors that keep all phases (inversion, reflections, exchanges of axes and their products are given); every routine is first shown to commute with relabelling of momenta, then C104 moves the orbital matrix through; induction over the passes of the solvers |
| `Window` | `chi_imfreq.cpp`, `chi_from_gg2.cpp`, `freq_conv.cpp`, `bse.py`, `dbse.py` with finite meshes; values outside come from any rule applied to the stored values, reads outside the memory are `none` | C120 | two functions that agree on the mesh give the same result, but have different bubbles; conditions on the sizes by linear arithmetic |
| `Fock` | no further code; the many-electron Fock space (matrices with anticommutation relations and dimension 2^modes), lattice Hamiltonian, thermal states and exact grand potential, as specification for the energies of `hf_solver.py` modelled in `HartreeFock` | C121 | traces of exponentials of free fermions by induction over modes; thermal states move through creation operators; Peierls inequality in an eigenbasis; Bogoliubov inequality with the mean-field Hamiltonian; existence of a Fock space for every finite set of modes; derivative of a determinant along curves |
| `Names` | every Python file of `python/triqs_tprf`, as programs over names, calls and imports (`Names/Data`, extracted by `tools/names_extract.py`; of `*_desc.py` the signatures) | C118, C119 | big-step semantics of binding, reading and deleting names with branches, loops, exceptions, `finally`, closures; a checker on sets of names is proved sound by induction over all runs and evaluated by the kernel on the extracted programs; upper bounds of bound names and explicit runs for the functions that fail |


Simplifications are stated in the comment of the definition concerned. The ones that matter most:

* C07–C09, C29–C31, C71, C81: frequencies are all integers; the finite window of a mesh and the
  evaluation outside it are not modelled. C56, C27, C58 and C120 model the windows explicitly.
* C13: the FFT path of the Matsubara transform; the tail is what the tail fit returned.
* C20: real arithmetic; the overflow guards (`if x < 0`) are modelled as branches and shown to agree.
* C21, C67, C77: LAPACK returns *some* eigenbasis; all theorems hold for each, and
  `C21_eigenbasis_independent` shows that the result does not depend on it.
* C26–C28: `trace`/`solve_lattice_bse` with the same fermionic window for all inputs unless stated.
* C49: convergence is not claimed (it depends on the model); what is proved is what the loop returns.
* C55: lines are already tokenised.
* C58: the general theorem is for any pair of transforms satisfying the convolution theorem; the
  plain FFT pair on finite windows (no tail) is proved to be one (`C58_plain_convPair`). With the fitted tails the
  routes agree in the limit of large meshes (`C58_limit`), given an accurate fit of the moments (TRIQS).
* C62: the map is an arbitrary function; the residual bound is for the branch that returned.
* C71: the infinite matrix equation `χ Γ χ0 = χ - χ0 = χ0 Γ χ`, the sums being convergent series;
  `abs(3. - exp(..))` is the real absolute value (with `U > 0`); the entry `C[0]` is that of zero
  bosonic frequency as the comment in the code says.

* C118: values are left out; a branch may go either way except on a parameter that is not rebound, whose truth value is
  taken as constant. Assumed: context managers do not swallow exceptions, functions are called only after the import of their
  module has finished and module names are not deleted from outside, `from triqs.gf import *` provides `BlockGf`. The extractor
  (300 lines, Python's own parser) is trusted.

## Findings

Each is proved in Lean (name of the theorem) on the model, from the cited code.

**Particle-hole response**

1. C08 `C08_bubble_from_dispersion_violated`: `chi00_wk_from_ek`-type bubble from the dispersion uses
   the same frequency in both propagators, so every nonzero bosonic frequency is wrong; exact at zero.
2. C11 `C11_interpolation_violated`: the Fourier interpolation returns the value at `-k`.
3. C14/C15/C17 `C14_documented_violated`, `C15_matrix_rpa_violated`, `C17_documented_violated`: the
   index pairs listed in swapped order in the calls of `group_indices_view` are **not** swapped by
   the view, so the equation solved is the one with `U(a,b,c,d)` unswapped; it agrees with the
   documented one exactly for `U(badc) = U(abcd)` (all real standard interactions). What is solved is
   proved in full (`C14_rpa_solves_unswapped`, `C17_screened_solves_unswapped`).
4. C21 `C21_equals_imaginary_time_bubble_violated`: the Lindhard function and the imaginary time
   bubble agree if `e(-k) = e(k)^T`, and differ for a band without that symmetry.
5. C67 `C67_documented_violated`: the real time bubble has the opposite sign of the documented one.
6. C29/C31 `C29_PP_violated`, `C29_PPx_violated`, `C31_PP_violated`: in the particle-particle channel
   the third frequency argument is `ω - ν'` where the documented notation has `ω - ν`.
7. C28: the dual Bethe-Salpeter route is proved when the impurity matrices are symmetric in the PH
   grouping (the code uses one triangle vertex for both sides). Documentation of the vertex in the C++ header states the full vertex `F`; the code computes
   the irreducible one `χ0⁻¹ - χ⁻¹` (C24).
8. C71/C81 `C71_high_temperature_violated`, `C81_high_temperature_violated`: in the Hubbard atom
   `B` is computed with `sqrt(abs(3 - exp(βU/2)))` times `i`; its square has the wrong sign whenever
   `βU < 2 ln 3`. There the returned susceptibility violates spin conservation at every bosonic
   frequency and vertex and susceptibility do not solve the Bethe-Salpeter equation. Below that
   temperature both are exact.

**Interactions, symmetries, fits**

9. C39 `C39_docstring_violated`: the Kanamori formula in the docstring counts spin flip and pair
   hopping twice; the implementations agree with each other and with the operator form.
10. C40 `C40_spin_slow_violated`: `spin_fast=False` returns the spin *down* block.
11. `split_quartic_tensor_in_charge_and_spin` does not check full spin rotation invariance; C38 states
    exactly which tensors survive the round trip.
12. `quartic_pauli_symmetrize` modifies its argument; `op_is_fundamental` ignores the prefactor;
    `np.float` is used in `extend_data_on_boundary` and `parse_...positions` (removed from numpy ≥ 1.24).
13. C42 `C42_orbital_violated` (every `norb ≥ 4`: elements of the two triangles are paired wrongly),
    `C42_check_orbital_violated` (None for an odd function with a vanishing pair).
14. C43 `C43_orbital_odd_violated`: symmetrising an already odd function negates it;
    `C43_orbital_even_violated`: from four orbitals on an even function is changed.
15. C45 `C45_hermitian_violated` (≥ 4 orbitals), `C45_block_violated`, `C45_block_fit_violated`
    (partially labelled upper triangle: the round trip raises).
16. C55 `C55_single_row_violated`: a one-orbital, one-vector file is refused. C56
    `C56_wnk_window_violated`: for the lattice routine a window larger by one is accepted, and every
    frequency gets the value of the largest one (numpy broadcasting of an empty/one point slice).
    C68 `C68_hermitian_violated`: complex hoppings give a non-Hermitian dispersion.

**Mean field and GW**

17. C48 `C48_violated`: `E_int` has the opposite sign of `<H_int>`. `solve_iter` documents a density
    matrix and returns the history.
18. C64 `C64_violated`: the Hartree self energy in real space uses only `v(q=0)`. C65 `C65_violated`:
    real space Fock uses `v(-q)`. C66 `C66_doc_violated`: header has `ρ(k+q)`, code `ρ(k-q)`; the header
    writes `W_abcd`, the code contracts `W(a,c,d,b)`.
19. C77 `C77_finite_violated`: division by zero on frequency meshes containing a pole of the Bose
    function. C78 needs `W_spec(-f,-q) = -W_spec(f,q)`.

**Eliashberg**

20. C59 `C59_header_violated`: the header equation is that of the transposed gap.
21. C61 `C61_singlet_violated`: the singlet combination has the opposite sign of the density ladder.
22. C72 `C72_violated`: spin and charge susceptibility have each other's sign in the RPA helper.
23. C62 `C62_negative_violated`, `C62_minus_one_violated`, `C62_eigenpair_violated`: the second stage
    (after a negative eigenvalue) ends with "Did not converge" whenever it is started from an eigenvector
    (the shifted map annihilates it, division by zero), no start vector works for `-1`, and for
    `diag(-1,-2)` it can return a pair with residual at least `1/2`, for every tolerance.
24. C63: five ways in which `allclose_by_scalar_multiplication` gives the wrong answer (positions of
    zeros, broadcasting, scaling, zero arrays, tolerance).
25. C80 `C80_given_violated`: constants given as `int`, `complex` or numpy scalars are ignored silently.
    `C58_exclusive`: with the default time meshes no vertex can be given to both the explicit sum (needs
    a mesh at least twice as long as that of the gap) and the Fourier route (needs equal time meshes), so
    the two cannot be compared on one input.

**Mean field response**

28. C82 `C82_bare_response_violated`: `chi0_abcd` is assembled as `0.5*(R + Im R')`, which is right only
    if the density matrix response to real fields is real. For complex hermitian dispersions the response
    of diagonal operators to antisymmetric fields is exactly zero (`bareResponse_antisymm`); for
    `σ_y + σ_z` the true derivative is not. Real dispersions are fine (`C82_bare_response_partial`).
29. C84: `eps` is accepted and ignored by both response classes (`C84_step_violated`), and
    `compute_chi0_k` reads an attribute whose assignment is commented out (`C84_chi0_k_violated`).
30. C85 `C85_flat_violated`: without `mu_min`/`mu_max` the search for the chemical potential is confined
    to the bottom and top of the mean field bands. For flat bands (an atom) every filling other than half
    filling raises `ValueError`; in general fillings outside `C85_default_range` do. `mu0` has no effect on
    the result (`C85_mu0_ignored`), although it is documented as the initial chemical potential.
31. C86 `C86_newton_violated`: `solve_newton` ends with a density step that keeps the chemical potential of
    the last evaluation of `fsolve`, which need not be the returned point. The witness uses a root finder
    that evaluates the solution and then a rejected trial point. For a converged MINPACK run the two points
    are within its tolerance of each other; for a run that gives up (only a warning, the flag is not
    requested) they need not be. `solve_iter` has no such problem (`C86_solve_iter`).

**GW solver**

32. C87 `C87_parts_violated`: attributes of parts that are switched off in a later call keep the value of
    the earlier call, so `sigma_wk` is not the sum of the reported parts. `C87_no_iteration_violated`:
    `maxiter=0` sets `sigma_wk` to zero and leaves `g_wk`, which then do not satisfy the Dyson equation.
    There is no flag telling whether the loop converged.
33. C88 `C88_doc_violated`: the docstring of `get_gw_tensor` says "antisymmetrized"; the tensor is only
    symmetric under exchange of its index pairs (which is what the solver needs, `C88_lattice`).
34. C89 `C89_bracket_violated`: the default `mu_bracket` is the range of the bare dispersion's matrix
    elements. For an orbital with `U = 1` at half filling the first iteration raises `ValueError`, for every
    root finder. `C89_tolerance_violated`: `N_tol` is used as relative tolerance of `mu`; at low temperature
    the particle number can be off by more than `1/4` for a root finder within its contract. `N_fix=0.0`
    means "not fixed".
35. C90 `C90_hartree_violated`: with `spinless=True` screening, Fock and dynamic part are those of the
    interaction between all spins, while the Hartree part counts one spin only. The two belong to different
    interactions; a test adds the difference by hand.
36. C91 `C91_documented_violated`: the routine for `W` documents its argument as the polarisation bubble;
    `bubble_PI_wk` and `lindhard_chi00` return the positive bubble, the solver passes minus that. Used as in
    the tests, a repulsion is enhanced (`W = 4/3` instead of `4/5`).
37. C92 `C92_frequency_violated`: the imaginary frequency routines build `G_da(ν) G_bc(ν+ω)`, while the
    imaginary time routines and the Lindhard function amount to `G_da(ν) G_bc(ν-ω)`. The limit of the
    frequency sum is the time result at `-ω` (`C92_routes_partial`). The difference is invisible at `ω = 0` and
    for density components with time reversal symmetry; the component `0110` of a two level atom shows it.
38. C93 `C93_numpy_violated`: `extend_data_on_boundary` uses `np.float`, which numpy removed in 1.24, so the default
    interpolator of `get_rel_k_chi_interpolator` raises for every input. `C93_unextended`: without the extension the
    interpolator has no value beyond the last mesh point.
39. C94 `C94_put_violated`: `put_gf_on_mesh` only compares the lengths of the meshes. A fermionic function is put
    on a bosonic mesh (or on one of another temperature) without complaint, and the values are attributed to
    other frequencies.
40. C96: `C96_single_violated` (a file with one row, that is one orbital and one momentum, is dropped, and the parser
    raises), `C96_numpy_violated` (`np.float`, `np.complex`), `C96_missing_violated` (mesh points without data
    silently get zero), `C96_boundary_violated` (a momentum with relative coordinate one is dropped instead of folded
    back), `C96_mixed_violated` (the momenta of the three file sets are not compared; elements of different momenta
    are added).
41. C97: `C97_digits_violated` (the positions are read through a field of eight characters: the sixth decimal of a negative
    coordinate is lost), `C97_single_violated` (one Wannier function: IndexError), `C97_list_violated` (the list of tuples
    returned by the lattice parser has no `T`; `np.float`), `C97_bohr_violated` (lattice vectors are converted from Bohr,
    positions are not), `C97_reciprocal_violated` (no header: empty list instead of an exception),
    `C97_bands_violated` (without an empty line after the last block two bands are returned as one). The path
    coordinate `w` has one row per band, the documentation says one dimension.
42. C98 `C98_static_violated`: `imtime_bubble_chi0_wk` with `nw=1` integrates over imaginary time by the trapezoidal rule,
    with more frequencies it uses the Fourier transform. `solve_lattice_bse_at_specific_w(..., nw_index=0)` therefore differs
    from `solve_lattice_bse` at zero frequency by `m2 (h/2 coth(h/2) - 1)`, with `m2` the jump of the derivative of the bubble
    and `h` the spacing of the time mesh.
43. C99 `C99_violated`: the bubble from imaginary time is at `+omega`, the bubble from the frequency routines and hence the
    Bethe-Salpeter equation at `-omega` (finding of C92). The correction of `solve_lattice_bse` mixes the two and does not
    vanish for large windows, except at zero frequency and for density components with time reversal symmetry.
44. C100 `C100_short_violated`: the transform from imaginary time checks that the mesh has at least twice as many intervals as
    positive frequencies, but the fit of the moments reads nine points at either end without a check; shorter meshes (up to
    three positive frequencies) are read out of bounds. The stored inverse matrix has about ten correct digits, and the third
    moment divides its error by the spacing of the times: its error grows like `2e-10 L/beta` times the derivative
    (`C100_moments`); the transform converges all the same (`C100_converges`, `C100_rate`).

45. C102 `C102_positivity_violated`: the option `positivity` of `constrained_lstsq_dlr_from_tau` bounds the sum of the coefficients
    of a diagonal component by zero instead of each coefficient. With the TRIQS driver the discontinuity fixes that sum to +1, so the
    two constraints exclude each other; with pydlr the sum is fixed to -1 and the option changes nothing
    (`C102_positivity_pydlr_violated`), coefficients of both signs are accepted. (The docstring gives `True` as the default, it is
    `False`.) C102 `C102_four_violated`: the mismatch of `triu` and `tril` orders (C45) makes hermitian Green's functions of the fit
    satisfy `G_12 = G_03` for four orbitals; an exact Green's function with a (1, 2) component but none in (0, 3) cannot be returned,
    and the lower triangle is left out of the density constraint.

46. C104: the code uses two different rules for one interaction tensor. `get_rpa_tensor` returns a tensor whose second and fourth
    index belong to creation operators (`C104_tensor`); Hartree-Fock, `matrix_rpa` and the bare part of the pairing vertices use it that
    way. `solve_rpa_PH`, GW and the Bethe-Salpeter equation contract it as if the first and third index did
    (`C104_rpa_partial`). For real orbitals with real rotations the two agree (`C104_rpa_real_partial`), otherwise results depend on the
    phases of the orbitals: `C104_rpa_violated` has a hermitian interaction and a diagonal change of phases that turns
    `chi0/(1 - 1/2)` into `chi0/(1 + 1/2)`; `C104_vertex_violated` shows it for the pairing vertices.
    `C104_real_time_violated`, `C104_lindhard_iff`: the real time bubble and the Lindhard function have other index orders than the
    Matsubara bubbles. `C104_scalar_product_violated`: the contraction of the dual Bethe-Salpeter routine uses the same triangle on both
    sides. `C104_bracket_violated`: the default range for the chemical potential is taken from matrix elements of the dispersion instead
    of its eigenvalues. `C104_g0w_violated`: the real frequency GW routines use only the elements `v_aabb`, which is not invariant even
    for real rotations.
47. (C106) The static bubble from `chi0q_sum_nu` (sum over the frequencies of a finite window, no tail) is negative for a level farther from the Fermi energy than the largest frequency of the window: `-2T (x² - w²)/(x² + w²)²` for the window of the two lowest frequencies `±w`. Fed into `solve_rpa_PH` it turns the Stoner criterion around. Proved as `C106_window_violated`; the time routes and the Lindhard function are positive for all inputs.
48. (C107) `solve_eliashberg` without `initial_delta` draws the start vector with `np.random.seed(None)` on every MPI rank separately. The Eliashberg products are collective: each rank contributes the pair function on its own chunk of the mesh, computed from its own vector (`C107_mixed`). The ranks therefore iterate with different Krylov bases and the same images; on two ranks a Krylov solver that is correct for every operator returns on rank 0 a characteristic polynomial without a single true eigenvalue (`C107_start_violated`; `np.real` of its roots is 3/4 where the eigenvalues are ±1). The unshifted power method forgets its start vector and is not affected (`C107_power`). Passing the same `initial_delta` on all ranks is safe (`C107_same`). A user who seeds `numpy.random` to get reproducible results gets fresh entropy instead (`C107_reproducible_violated`), and a Green's function without real part (an atom at half filling) yields the zero vector (`C107_zero_violated`).
49. (C108) `write_TarGZ_HDFArchive` and `read_TarGZ_HDFArchive` treat the name differently: writing cuts it at the first dot, reading uses it as given. `U=2.5.tar.gz` is written to `U=2.tar.gz`, reading `U=2.5.tar.gz` fails, and `U=2.1.tar.gz` silently replaces the earlier result; `./run/x.tar.gz` is written to `.tar.gz` in the working directory. A file `stem.h5` of the user is overwritten and deleted. `C108_names` says exactly which names work.
50. (C109) `_clean_bools` says "all" but casts only direct entries (`C109_nested_violated`). A parameter named `items` can be written but never read, since `self.items()` finds the parameter (`C109_items_violated`). `convert_keys_from_string_to_python` fails on a dictionary with a block name as key (`C109_convert_violated`).
51. (C109) `ParameterCollections.__getattr__` answers for every name, including the names of the copy protocol: `copy.deepcopy` calls an array and raises `TypeError`; `copy.copy` and unpickling ask an object without `objects` for `__setstate__` and never leave `__getattr__`, so they raise `RecursionError` for every recursion limit (`C109_copy_violated`). A misspelt attribute gives an array of `None` (`C109_misspelt_violated`).

52. **The pair function on DLR meshes loses double poles** (C111).  `eliashberg_g_delta_g_product` for DLR meshes
    (`eliashberg.cpp:76-132`) multiplies the values of both Green's functions at the frequency nodes, fits the product, and
    convolves it in imaginary time with the gap.  The routine for Matsubara meshes multiplies values.  A convolution of two
    functions with a common pole has a double pole, which is not in the span of the mesh; it is then interpolated from its
    values at the time nodes.  `C111_term` gives the difference exactly, `C111_double_violated` a one-pole mesh on which it
    never vanishes.  With many poles the interpolation error is as small as the accuracy of the basis, so the effect in
    practice is of the order of the DLR tolerance times the (possibly large) fitted coefficients.
53. **Complex eigenvalues of the Eliashberg map are cut to their real part** (C112).  `implicitly_restarted_arnoldi_method`
    ends with `Es = Es.real` (eliashberg.py:329-335).  The map is real-spectral when the pair propagator
    `G(k) ⊗ G(-k)` is positive (one orbital, inversion symmetry), but not in general:  two free levels at energies
    on both sides of the Fermi level with a real symmetric vertex have the eigenvalue `i`, and the code returns
    `0` together with a gap which is not an eigenvector for `0`.  No warning is given.

54. **The Hartree solver reports the exchange energy it leaves out** (C114).  `HartreeSolver` only replaces `mat2vec` and
    `vec2mat`, so the mean field is that of the occupations, but `update_interaction_energy` uses the full `rho_ab`.
    With bands that hybridise the orbitals the reported `E_int` (and `E_tot`, `Omega`) contains
    `1/2 sum V_ac rho_ac rho_ca`; for two orbitals with hopping 1, `n_0 n_1`, beta = 1 at half filling the run converges in
    one step and reports `-1/4 + (f(1) - 1/2)^2` instead of `-1/4` (both with the sign of finding C48).
55. **The Lindhard bubble gives a response of conserved operators when time reversal symmetry is broken** (C116).
    The pairs of orbital indices in `lindhard_chi00` are those of the transposed operator (see C21). For a hermitian
    dispersion with `e(-k) ≠ e(k)ᵀ` an operator that commutes with the Hamiltonian, even the Hamiltonian itself, has a
    response at zero momentum and nonzero frequency (`C116_no_response_violated`); `imtime_bubble_chi0_wk` has none
    (`C116_time`).

56. **The Lindhard bubble does not have the symmetry of its dispersion when the symmetry acts with complex matrices on the
    orbitals** (C117). `C117_lindhard_violated`: one site, two orbitals and a unitary matrix that commutes with the
    Hamiltonian; the bubble is not invariant at any nonzero frequency. With real matrices it is (`C117_lindhard_partial`).

57. **Names that do not exist** (C118). `bubble_setup` reads `sigma` (its parameter is `sigma_w`) and therefore never
    succeeds, nor does `chi0_w0k_tau_bubble`, which calls it, deletes `grt` (the variable is `g_tr`) and reads `sigma`;
    `triqs_driver.initial_guess_from_tau_interp1d` calls `make_gf_dlr_imtime`, which is not imported;
    `strip_sigma(..., debug=True)` reads `p`. `GWSolver.solve_iter(maxiter=0)` with `gw=True` raises UnboundLocalError for
    `W_wk` after it has already replaced the stored Green's function. The three parsers of `*.wout` files raise UnboundLocalError
    instead of a meaningful error for an empty file. (`C118_*_violated`)
58. **The Hartree-Fock response is wrong for complex dispersions** (C83). `C83_response_violated`: without interaction and with the dispersion
    `σ_y + σ_z` on one site the response of `σ_z` to a field along `σ_y` is reported as zero at every step, while the derivative
    of the (unique) self-consistent average is not zero.
59. **Frequencies that are not there** (C120). `get_chi0_wnk`, `get_chi0_nk_at_specific_w`, `chi0_from_gg2_*` and `from_3nu_*`
    evaluate Green's functions at `ν + ω` or `ω - ν`. They are right for every function exactly if `nwf + nw - 1` frequencies fit into
    its mesh, and no routine checks it. `C120_default_violated`: without `nwf` all frequencies are taken, so only `nw = 1` is right.
    `C120_specific_default_violated`: `get_chi0_nk_at_specific_w` is wrong with its own default arguments on every mesh.
    `C120_dbse_violated`: the assertion of `solve_lattice_dbse` forgets the bosonic frequencies. `C120_assertion_violated`: the
    assertion of `chi0_n_from_e_k_sigma_w_PH` lets pass reads outside the memory of the self energy from three bosonic frequencies
    on. `C120_block_violated`: on every mesh some components made by exchange in `block_3nu_AABB_to_tensor_valued` need values
    outside of it.
60. **Entropy from the reported energies** (C121). The reported `Omega` is the right variational grand potential: it bounds
   the exact one from above. Because of the sign of `E_int` (finding of C48), `E_tot` is not the energy that belongs to it:
   `Omega = (E_kin - E_int) - mu N - T S`, so the entropy `(E_tot - mu N - Omega)/T` formed from the reported numbers is off
   by `2 E_int / T` and can be negative (half filled Hubbard atoms, `U = 4`, `beta = 1`: `C121_entropy_violated`).
61. **Interactions of the mean field solvers** (C122). The constructor asserts that `H_int` is composed of the fundamental
    operators and then takes only the terms `c^+ c^+ c c`. Level shifts, hybridisations, pairing fields and six-fermion
    terms in `H_int` pass the assertion and are dropped without a message (`C122_ignored_violated`): `U n_up n_dn - U/2
    (n_up + n_dn)` gives the same result as `U n_up n_dn`. The particle-hole symmetric form `U (n_up - 1/2)(n_dn - 1/2)`
    fails instead, since `d, t = list(zip(*op_list))` cannot unpack the constant term (`C122_constant_violated`).
    `op_is_fundamental` ignores the prefactor, so that `2*c(0,0)` is accepted as fundamental operator; `get_quadratic_operator`
    multiplies with it twice and the matrix read back is `conj(a_i) h_ij a_j` (`C122_scaled_violated`).
62. C123 `C123_high_temperature_violated`: the susceptibility of the Hubbard atom is the exact one only for
    `exp(beta U/2) >= 3`; at higher temperatures `abs(3 - exp(beta U/2))` in `B` has the wrong sign, and the result
    differs from the susceptibility of the atom at all `nu = nu'` (the root of C71 and C81, see findings there).
63. C124 `C124_history_violated`: `solve_setup` without `mu0` first searches the chemical potential in the bands left
    behind by the previous call (those of `e_k` for a new object), although the result is overwritten; if that search
    fails, so does the call, even if the one in the bands of `M0` would succeed. `mu0` has no other effect than to skip
    it (`C85_mu0_ignored`).

64. **`realvalued` drops the imaginary part of the Hamiltonian (C125).** With `realvalued=True` the check of `h_ab` still accepts any
    hermitian matrix, `mat_vec` keeps real parts only, and the constraints are those of `Re h` and `Re U`
    (`C125_imaginary_violated`). For a complex `h` and a real interaction the documented relation of slopes and density fails for every
    possible result (`C125_complex_violated`). With four orbitals the result is symmetric only if its components (1, 2) and (0, 3) are
    equal (`C125_symmetric_violated`). `fitdlr.py:264-272, 354-366`.
65. **Fixed thresholds and defaults know the unit and the zero of energy (C126).** `lindhard_chi00` treats levels as degenerate below
    `1e-10` whatever the unit: for every fixed threshold there is a two level system whose susceptibility changes by the wrong factor
    under a change of the unit (`C126_lindhard_violated`, `lindhard_chi00.cpp:70`). `GWSolver.solve_iter` compares a difference of
    Green's functions, an inverse energy, with `tol`: for every `tol` there is an atom whose number of iterations and number of particles
    depend on the unit (`C126_gw_violated`, `gw_solver.py:355, 361`). The default `mu_bracket` takes the extremes over all matrix elements
    of the dispersion, also those off the diagonal, which do not move with the zero of energy: with two orbitals and hopping -1
    the solution is inside of the bracket or outside of it depending on the zero (`C126_gw_bracket_violated`, `gw_solver.py:92-93`);
    also a chemical potential not given is the number zero.

66. **GW self-energies depend on the unit cell (C128).** `chi0_tr_from_grt_PH` multiplies `g_da(τ, r) g_bc(β-τ, -r)`
    (`chi_imtime.cpp:126`): the pair `(a, b)` sits at the origin and `(c, d)` at `r`. `gw_dynamic_sigma` forms
    `-W_acdb(τ, r) g_cd(τ, r)` (`gw.cpp:99`), where the first pair has to sit at `r`. The solver passes one to the other. With one
    site in a cell the difference cannot be seen when the lattice has inversion symmetry. With two sites in a cell the Green's function is
    taken at the right distance and the interaction at another (`C128_gw_dynamic_actual`): for the Hubbard interaction on a ring of six
    sites the self-energy between neighbours in different cells contains the interaction at distance three instead of one
    (`C128_gw_violated`). With `W` at the opposite momentum the result would not depend on the cell (`C128_gw_dynamic_partial`).

67. **The RPA vertices of the gap equation depend on the unit cell (C128).** `construct_gamma_singlet_rpa` and
    `construct_gamma_triplet_rpa` take the complex conjugate of the ladder and exchange the first and third index
    (`eliashberg.py:490-491, 545-546`). The exchange alone brings the vertex to the direction that `eliashberg_product` needs, the conjugation
    turns it back (`C128_vertex_actual`). With two sites in a cell the product is another one than with one site
    (`C128_eliashberg_violated`); with a vertex in the right direction it is the same (`C128_eliashberg_partial`).

68. **The sum over a window of frequencies tells particles from holes (C129).** `chi0q_sum_nu` adds `G(ν) G(ν + ω)` over the
    frequencies `-N ≤ ν < N`. For holes the product belongs to `-ν - ω`, so that the window of the holes is shifted by `ω`. At
    `ω = 0` this is the same window (`C129_window_partial`); at the first bosonic frequency a level at `e` and a level at `-e` get
    different susceptibilities (`C129_window_violated`, every `N`, every `e ≠ 0`). The difference is of the order `1/N³` for one
    level. A window from `-N - ω` to `N` would not have it.

69. **Solvers of the same approximation disagree for complex models (C130).** The Bethe-Salpeter solver with the vertex of
    `get_gamma_rpa` solves the RPA equation in the documented index order for every interaction (`C130_bse_documented`);
    `solve_rpa_PH` solves it without the documented permutation (finding at C14). For interactions with `U(badc) ≠ U(abcd)`,
    which are the complex ones, the two return different susceptibilities (`C130_bse_rpa_violated`, any temperature). And for
    bands with complex matrix elements `HartreeFockResponse` misses what `lindhard_chi00` followed by `solve_rpa_PH` contains:
    for bands of `σ_y + σ_z` without interaction the first is exactly zero between `σ_y` and `σ_z` for every step, the second
    is not (`C130_response_violated`). For real models the solvers agree.

70. **The dual Bethe-Salpeter solver does not keep the reversal of motion (C131).** `solve_lattice_dbse` multiplies the same
    triangle vertex, built from `χ₀⁻¹ χ` of the impurity, from the left and from the right. The right one of the reversed
    problem is the left one of the original, and they differ for an impurity that is not its own reversal. So the reversed
    impurity and lattice do not give the reversed susceptibility (`C131_dual_violated`); with a self-reversed impurity they do
    (`C131_dual_partial`). All other solvers keep the reversal.

71. **`lindhard_chi00` jumps when the splitting of two levels crosses its tolerance** (`lindhard_chi00.cpp`, `C133_lindhard_violated`). At zero frequency the limit of equal levels is taken at the level of `k` alone whenever `|de| < tol`. The quotient for `|de| ≥ tol` does not approach that value, so the function of the bands is not continuous. `C133_lindhard_static_partial` shows that the jumps are at most `β² tol/2`: harmless with the tolerance of 1e-10 in the source unless β is near 1e5.

72. **`numpy_compat` refuses pre-release versions of numpy** (`numpy_compat.py:17-20`, `C135_suffix_violated`). `StrictVersion` accepts only `aN` and `bN` after the numbers, so `np_inv`, `np_eigh` and `np_eigvalsh` raise `ValueError` with `2.0.0rc1` or `1.26.0.dev0`. The module `distutils` was removed in Python 3.12, so that the import fails there (not modelled). With numpy up to 1.8.0 `np_eigvalsh` squeezes the array and so fails for one momentum and drops an axis for one orbital (`numpy_compat.py:62`, `C135_eigvalsh_violated`).

73. **`BlockGf_data` repeats small blocks, and the cutoff of `legendre_filter` does not hold** (`utilities.py:87-90`, `C137_data_violated`; `utilities.py:122-123`, `C137_cut_violated`). The shape of the first block is used for all; numpy repeats a block with one orbital over all elements of a larger one instead of raising an exception. The jump is enforced after small Legendre coefficients were set to zero, which makes those that enter the jump nonzero again. The jump is given as a matrix with one element, so the filter is meant for blocks with one orbital only.

**Utilities**

26. C50 `C50_self`: an attribute called `self` makes a collection uncopyable. C52 `C52_violated`:
    collections made without arguments share one list.
27. C53 `C53_other_violated` (timer called "Other"), C54 `C54_violated` (a refused `stop` drops the
    innermost timer), C73 `C73_violated` (decorated method raising leaves the timer running).


## Not modelled

Plotting, HDF5, MPI start-up, the choice of DLR poles and nodes and the least-squares fits inside TRIQS and cppdlr
(modelled as solutions of square linear systems, C110), the algorithms inside scipy root finders and eigensolvers (`brentq` is any function obeying its
documentation, `fsolve` any procedure evaluating and returning points, ARPACK is not modelled), tail fits,
real-frequency broadening, the random numbers themselves (the generator is abstract, C107), command line and notebook material.

## How the theorems are tested

`seeded/LOG.jsonl` has one line per wrong program tried: a definition of the model is edited as a
realistic bug would, everything that depends on it is rebuilt in a scratch copy, and the theorems that
no longer prove are recorded. Survivors are examined; where a claim was false but its theorem still
proved, the theorem was tightened (recorded in the same line).

How to read the log: `theorems_failed` lists the theorems (or the lemmas they rest on) whose proofs no
longer compile after the edit. A broken proof is strong evidence that the theorem notices the edit, but
it is not itself a proof that the statement has become false. When a lemma breaks, Lean does not check
the files above it; `theorems_depending_on_failed` names the claims that rest on it, which were not
checked one by one. Of the edits that broke nothing (`survived`), 5 are
equivalent programs; the others led to new or sharper theorems. Two edits broke only concrete examples
(`wIndices`, `number`), and two did not compile and test nothing; their lines say so. The edits are a sample chosen by hand and by a small generator, not all possible ones.

## Axioms

Axioms of the property theorems (`Cxx_...`), from `Lean.collectAxioms`:

* no axioms: `C03_shared_cell_loses_update`, `C80_fit`, `C80_given_partial`, `C80_given_violated`.
* `propext`: `C108_clean`, `C109_convert_violated`, `C109_copy_violated`, `C109_items_violated`, `C109_keys_violated`, `C109_nested_violated`, `C29_doc_conserves`, `C50_self`, `C52_violated`, `C70_entry`.
* `propext, Quot.sound`: `C108_h5_violated`, `C108_names`, `C108_roundtrip_partial`, `C108_two`, `C108_untouched`, `C109_archive_partial`, `C109_convert`, `C109_misspelt_violated`, `C109_series`, `C118_bubble_setup_violated`, `C118_chi0_w0k_violated`, `C118_import`, `C118_interp1d_violated`, `C118_names_partial`, `C118_reciprocal_partial`, `C118_solve_iter_hf_partial`, `C118_solve_iter_partial`, `C118_solve_iter_violated`, `C118_strip_sigma_partial`, `C118_strip_sigma_violated`, `C118_wout_violated`, `C119_imports`, `C119_order`, `C120_assertion_violated`, `C29_PH_partial`, `C29_PHbar_partial`, `C29_PP_partial`, `C29_lossless`, `C30_block_to_tensor`, `C30_crossing`, `C50_wf`, `C52_stale`, `C52_step`, `C56_G2_window`, `C56_wnk_refuses_partial`, `C56_wnk_window`, `C56_wnk_window_violated`, `C70_matrix_roundtrip`, `C70_tensor_roundtrip`, `C76_sorted`.
* `propext, Classical.choice, Quot.sound`: all other property theorems (845 of them).
