{"id": "C01", "title": "Work split over MPI ranks covers every mesh point exactly once", "statement": "For any mesh size and any number of ranks, concatenating the point lists handed to rank 0,1,...,n-1 gives the mesh in order: no point is lost, none is computed twice, and the loads of two ranks differ by at most one.", "quantifier": "every mesh size, every number of ranks >= 1 (also more ranks than points)", "why_tests_cant": "tests run with one or a few ranks on a few mesh sizes; the remainder logic only matters when the size is not divisible by the rank count", "anchors": ["c++/triqs_tprf/mpi.hpp:33-48 mpi_view"]}
{"id": "C02", "title": "Results of distributed loops do not depend on the number of ranks", "statement": "A routine that zero-initialises its output, lets each rank fill (or accumulate into) the output for its share of the mesh, and sums over ranks, returns on every rank the same values that a single-rank run returns.", "quantifier": "every mesh, every per-point computation, every number of ranks", "why_tests_cant": "the property is about all rank counts and all inputs; a test fixes both", "anchors": ["c++/triqs_tprf/lattice/gf.cpp:41-58 lattice_dyson_g0_Xk", "c++/triqs_tprf/lattice/gf.cpp:152-192 lattice_dyson_g_X", "c++/triqs_tprf/lattice/fourier.hpp:36-231", "c++/triqs_tprf/mpi.hpp:33-48"]}
{"id": "C03", "title": "Results of threaded loops do not depend on the thread schedule", "statement": "In the OpenMP loops every iteration writes only the output cell(s) of its own mesh point, so every interleaving of the iterations' writes yields the sequential result.", "quantifier": "every assignment of iterations to threads and every interleaving of their writes", "why_tests_cant": "schedules are chosen by the runtime; a test observes one of them", "anchors": ["c++/triqs_tprf/lattice/gf.cpp:41-58", "c++/triqs_tprf/lattice/gf.cpp:152-192", "c++/triqs_tprf/lattice/lindhard_chi00.cpp:34-94", "c++/triqs_tprf/lattice/gw.cpp:79-112"]}
{"id": "C04", "title": "The lattice Green's function solves the Dyson equation", "statement": "lattice_dyson_g_wk returns at each (frequency, momentum) the two-sided inverse of (w+mu)1 - e_k - Sigma(w[,k]) whenever that matrix is invertible; with Sigma = 0 it equals lattice_dyson_g0_wk; a momentum-independent Sigma passed through either overload gives the same result.", "quantifier": "every dispersion, self energy, chemical potential, frequency, orbital count for which the matrix is invertible", "why_tests_cant": "an equation over all matrices", "anchors": ["c++/triqs_tprf/lattice/gf.cpp:41-58", "c++/triqs_tprf/lattice/gf.cpp:91-123"]}
{"id": "C05", "title": "The local lattice Green's function is the Brillouin zone average", "statement": "lattice_dyson_g_w equals the arithmetic mean over the Brillouin zone of lattice_dyson_g_wk built from the same self energy, for any rank count.", "quantifier": "every dispersion, self energy, mesh, rank count", "why_tests_cant": "two separately coded loops; tests compare them at sample values", "anchors": ["c++/triqs_tprf/lattice/gf.cpp:152-192 lattice_dyson_g_X", "c++/triqs_tprf/lattice/gf.cpp:91-123"]}
{"id": "C06", "title": "Lattice Fourier transforms are mutually inverse", "statement": "fourier_wr_to_wk applied to the result of fourier_wk_to_wr returns the input, and vice versa, for every lattice size; the transform is linear and maps a constant in k to a function supported at r=0.", "quantifier": "every periodic lattice (any dimension/extent) and every function on it", "why_tests_cant": "statement over all meshes and all data", "anchors": ["c++/triqs_tprf/fourier/fourier_lattice.cpp:28-59", "c++/triqs_tprf/lattice/gf.cpp:209-275", "c++/triqs_tprf/lattice/fourier.hpp:165-231"]}
{"id": "C07", "title": "Real-space bubble equals momentum-space convolution", "statement": "The particle-hole bubble computed via real space (chi0r_from_gr_PH then chi0q_from_chi0r) equals the explicit Brillouin zone sum -beta/N sum_k g(n,k)_{da} g(n+w,k-q)_{bc} (chi0_n_from_g_wk_PH) for every mesh and frequency.", "quantifier": "every lattice, Green's function, frequency pair, orbital index", "why_tests_cant": "convolution theorem for all data; tests compare at tolerance for one model", "anchors": ["c++/triqs_tprf/lattice/chi_imfreq.cpp:63-139 chi0r_from_gr_PH", "c++/triqs_tprf/lattice/chi_imfreq.cpp:254-282 chi0_n_from_g_wk_PH", "c++/triqs_tprf/lattice/chi_imfreq.cpp:428-485"]}
{"id": "C08", "title": "The bubble from dispersion and self energy equals the bubble from the Green's function", "statement": "chi0_n_from_e_k_sigma_w_PH returns, at every bosonic frequency, the same as chi0_n_from_g_wk_PH with the lattice Dyson Green's function. (Violated for non-zero bosonic frequency: the second propagator uses the fermionic frequency without the bosonic shift in the bare part.)", "quantifier": "every dispersion, self energy, bosonic frequency", "why_tests_cant": "tests only use the zero bosonic frequency or compare to nothing", "anchors": ["c++/triqs_tprf/lattice/chi_imfreq.cpp:289-322 chi0_n_from_e_k_sigma_w_PH"]}
{"id": "C09", "title": "Imaginary time bubble symmetry", "statement": "chi0_tr_from_grt_PH obeys chi0_{abcd}(beta-tau,-r) = chi0_{cdab}(tau,r) on every mesh point, and its equal-index form is g(tau,r) g(beta-tau,-r).", "quantifier": "every Green's function on every (tau, r) mesh", "why_tests_cant": "exchange symmetry for all data", "anchors": ["c++/triqs_tprf/lattice/chi_imtime.cpp:38-136"]}
{"id": "C10", "title": "Static bubble by trapezoidal integration is exact for affine data and linear", "statement": "chi_w0r_from_chi_tr and chi0_w0r_from_grt_PH integrate with weights that sum to beta, are linear, symmetric under tau -> beta-tau, and are exact for data affine in tau.", "quantifier": "every number of tau points >= 2, every data", "why_tests_cant": "weights must be right for all mesh sizes", "anchors": ["c++/triqs_tprf/lattice/chi_imtime.cpp:185-277 chi_trapz_tau"]}
{"id": "C11", "title": "Fourier interpolation reproduces the mesh values", "statement": "cluster_mesh_fourier_interpolation evaluated at a mesh momentum returns the input value at this momentum. (Violated: the sign of the exponent is opposite to that of the lattice Fourier transform and the value at -k is returned; correct for inversion symmetric data.)", "quantifier": "every lattice and every function", "why_tests_cant": "tests use inversion symmetric data", "anchors": ["c++/triqs_tprf/lattice/fourier_interpolation.cpp:29-68"]}
{"id": "C12", "title": "Matsubara transform tail model carries the requested moments", "statement": "The three-pole model subtracted in the imaginary time -> Matsubara transform has high-frequency moments exactly m1, m2, m3 for fermions and bosons, and its first moment is minus the discontinuity (fermion: -(g(0)+g(beta)), boson: -(g(0)-g(beta))).", "quantifier": "every triple of moments, both statistics", "why_tests_cant": "identity in all moments", "anchors": ["c++/triqs_tprf/fourier/fourier_matsubara.cpp:123-184", "c++/triqs_tprf/fourier/fourier_matsubara.cpp:218-308"]}
{"id": "C13", "title": "Matsubara transform round trip", "statement": "Transforming Matsubara data to imaginary time and back on the discrete meshes returns the data whenever the number of time intervals is at least the number of frequencies (the size check the code enforces), for both statistics, for the same tail moments.", "quantifier": "every data, every mesh pair satisfying the size check", "why_tests_cant": "aliasing-free condition for all sizes", "anchors": ["c++/triqs_tprf/fourier/fourier_matsubara.cpp:102-308"]}
{"id": "C14", "title": "RPA solver solves the RPA equation", "statement": "solve_rpa_PH returns the unique chi with chi(abcd) = chi0(abcd) + sum chi0(abpq) U(qpsr) chi(rscd) as documented, equals chi0 for U = 0, and does not depend on writing it as (1-chi0 U)^-1 chi0 or chi0 (1-U chi0)^-1. (The code asks for a view with the last two axes exchanged; a strided view cannot do this, the axes stay in memory order and the equation solved is chi = chi0 + chi0(abpq) U(pqrs) chi(rscd). The documented equation is violated for hermitian interactions with complex coefficients and holds when U(badc) = U(abcd), e.g. real coefficients.)", "quantifier": "every chi0, U, orbital count with invertible 1 - chi0 U", "why_tests_cant": "equation over all tensors", "anchors": ["c++/triqs_tprf/lattice/rpa.cpp:29-64 solve_rpa_PH", "python/triqs_tprf/rpa_tensor.py"]}
{"id": "C15", "title": "Python matrix RPA equals the C++ RPA solver", "statement": "chi_rpa_spin / chi_rpa_charge from matrix_rpa.py, after the documented exchange of the last two indices of all tensors, coincide with solve_rpa_PH with the interaction U (spin) and -U (charge). (Violated for complex interactions, see C14; holds when U(badc) = U(abcd). matrix_rpa always solves the documented equation.)", "quantifier": "every bubble tensor, interaction tensor, orbital count", "why_tests_cant": "two independent implementations with different index orders, tests compare them on random samples", "anchors": ["python/triqs_tprf/matrix_rpa.py:194-257", "python/triqs_tprf/matrix_rpa.py:42-48 tprf_order_to_matrix_rpa_order", "c++/triqs_tprf/lattice/rpa.cpp:29-64"]}
{"id": "C16", "title": "Tensor/matrix index grouping in matrix_rpa is a bijection", "statement": "matrix_to_tensor(tensor_to_matrix(t)) = t and tensor_to_matrix(matrix_to_tensor(m)) = m for every orbital number, and tensor_to_matrix turns pair contraction into the matrix product.", "quantifier": "every orbital number, every tensor", "why_tests_cant": "index permutation correctness for all sizes", "anchors": ["python/triqs_tprf/matrix_rpa.py:145-191"]}
{"id": "C17", "title": "The screened interaction solves its Dyson equation", "statement": "dynamical_screened_interaction_W returns the unique W with W_{abcd} = V_{abcd} + sum V_{abef} Pi_{fegh} W_{hgcd} (as documented); W = V when Pi = 0; the optimised route (static V) and the generic route agree; mismatched momentum meshes are refused. (The documented equation is violated for polarisations without the symmetry Pi(badc) = Pi(abcd); the code solves W = V + V_{abef} Pi_{efgh} W_{ghcd}.)", "quantifier": "every V, Pi, orbital count", "why_tests_cant": "tests use one orbital or density-density interactions, where the index swap is invisible", "anchors": ["c++/triqs_tprf/lattice/dynamical_screened_interaction.cpp:34-130", "c++/triqs_tprf/lattice/gw.hpp"]}
{"id": "C18", "title": "Screening with the RPA susceptibility equals screening with the bubble", "statement": "dynamical_screened_interaction_W_from_generalized_susceptibility with the RPA susceptibility chi = solve_rpa_PH(Pi, V) returns the same W as the generic bubble route.", "quantifier": "every V, Pi with invertible 1 - Pi V", "why_tests_cant": "algebraic identity over all tensors", "anchors": ["c++/triqs_tprf/lattice/dynamical_screened_interaction.cpp:34-83", "c++/triqs_tprf/lattice/rpa.cpp:29-64"]}
{"id": "C19", "title": "Splitting and recombining dynamic and constant parts is lossless", "statement": "add_dynamic_and_static(split_into_dynamic_wk_and_constant_k(chi)) = chi for any tail fit result, for any rank count.", "quantifier": "every chi, every tail fit output", "why_tests_cant": "must not depend on quality of the fit", "anchors": ["c++/triqs_tprf/lattice/lattice_utility.cpp:57-103"]}
{"id": "C20", "title": "Fermi and Bose functions", "statement": "fermi(e) returned by the overflow-safe branches equals 1/(exp(e)+1) for every real e, lies strictly between 0 and 1, is strictly decreasing, and satisfies fermi(e)+fermi(-e)=1; bose(e) satisfies bose(e)+bose(-e)=-1 for e != 0.", "quantifier": "every real argument (exact arithmetic)", "why_tests_cant": "infinite domain; branch boundary", "anchors": ["c++/triqs_tprf/lattice/lattice_utility.cpp:146-157", "c++/triqs_tprf/lattice/chi_retime.cpp:40-47"]}
{"id": "C21", "title": "Lindhard bubble symmetry and degenerate limit", "statement": "lindhard_chi00 obeys chi_{abcd}(w,q) = chi_{cdab}(-w,-q), does not depend on which eigenvectors the diagonalisation returns, and the branch used for degenerate energies at zero frequency is the limit of the regular branch. At every bosonic Matsubara frequency it equals the Fourier transform (lattice and imaginary time) of the imaginary time bubble of the non-interacting Green's function. (The last claim holds for time reversal symmetric dispersions e(-k)=e(k)^T and is violated otherwise, e.g. for one band with e(k) != e(-k).)", "quantifier": "every dispersion, q, frequency", "why_tests_cant": "analytic limit and identity over all inputs", "anchors": ["c++/triqs_tprf/lattice/lindhard_chi00.cpp:33-111", "c++/triqs_tprf/lattice/lindhard_chi00.hpp:27-97", "c++/triqs_tprf/lattice/chi_imtime.cpp:88-136"]}
{"id": "C22", "title": "Two-particle channel products form a ring with inverses", "statement": "product_X, inverse_X and identity_X (X = PH, PP, PH_bar) satisfy associativity, identity laws, inverse_X(A) A = A inverse_X(A) = identity_X when the grouped matrix is invertible, at each bosonic frequency independently.", "quantifier": "every A,B,C, every window size and orbital count", "why_tests_cant": "laws over all tensors", "anchors": ["c++/triqs_tprf/linalg.cpp:28-122", "c++/triqs_tprf/channel_grouping.hpp:55-86"]}
{"id": "C23", "title": "Contraction with triangle vertices uses the documented index order", "statement": "scalar_product_PH(L, M, R) is the explicit sum over frequencies and index pairs tr_{abcd} = sum L_{efba} C_{efgh} R_{hgcd}, and agrees with the sum-over-frequencies of the triple product used in the lattice BSE routines.", "quantifier": "every L, M, R", "why_tests_cant": "strided-view grouping differs in each factor; tests use symmetric samples", "anchors": ["c++/triqs_tprf/linalg.cpp:180-207 scalar_product_PH", "c++/triqs_tprf/lattice/chi_imfreq.cpp:735-749"]}
{"id": "C24", "title": "Impurity vertex extraction and local Bethe-Salpeter equation are inverse", "statement": "Feeding the vertex returned by solve_local_bse(chi0, chi) (equally impurity_irreducible_vertex_Gamma) back into the Bethe-Salpeter equation with the same chi0 returns chi, and extracting the vertex from a solution of the Bethe-Salpeter equation returns the vertex one started from, whenever chi0 and chi are invertible in the PH channel.", "quantifier": "every chi0, chi with invertible PH matrices", "why_tests_cant": "round trip over all inputs", "anchors": ["python/triqs_tprf/bse.py:51-118", "c++/triqs_tprf/linalg.cpp:28-122"]}
{"id": "C25", "title": "Lattice Bethe-Salpeter solution solves the equation", "statement": "chiq_from_chi0q_and_gamma_PH returns chi = chi0 + chi0 Gamma chi for every (w,q); it reduces to the local chi when chi0q is momentum independent and equal to the impurity chi0.", "quantifier": "every chi0, Gamma with 1 - chi0 Gamma invertible", "why_tests_cant": "operator equation", "anchors": ["c++/triqs_tprf/lattice/chi_imfreq.cpp:623-657"]}
{"id": "C26", "title": "All routes to the frequency-summed lattice susceptibility agree", "statement": "chiq_sum_nu_from_chi0q_and_gamma_PH, chiq_sum_nu(chiq_from_chi0q_and_gamma_PH) and the per-frequency routines return the same trace for the same inputs.", "quantifier": "every chi0, Gamma, window", "why_tests_cant": "several separately coded loops", "anchors": ["c++/triqs_tprf/lattice/chi_imfreq.cpp:804-920", "c++/triqs_tprf/lattice/chi_imfreq.cpp:1169-1187"]}
{"id": "C27", "title": "Tail-corrected susceptibility only adds the bubble tail", "statement": "chiq_sum_nu_from_g_wk_and_gamma_PH with tail correction (and solve_lattice_bse in Python) returns, at every (q,w), the uncorrected frequency-summed susceptibility on the vertex window plus (tail-corrected bubble sum minus bubble sum on the vertex window); with Gamma = 0 it equals the tail-corrected bubble; if the tail fit reduces to the plain Matsubara sum and the windows coincide it equals the uncorrected result; a tail window smaller than the vertex window is refused.", "quantifier": "every Green's function, vertex, pair of windows", "why_tests_cant": "identity over all windows", "anchors": ["c++/triqs_tprf/lattice/chi_imfreq.cpp:924-1041"]}
{"id": "C28", "title": "Dual Bethe-Salpeter equals the ordinary lattice Bethe-Salpeter equation", "statement": "With F the impurity reducible vertex, the triangle vertex L = (1/beta) sum_n' chi0^-1 chi of the same impurity and the non-local bubble chi0_q - chi0_imp, the dual BSE susceptibility chi_imp + L (1 - chi0nl F)^-1 chi0nl L returned by solve_lattice_dbse equals the lattice BSE susceptibility built from the irreducible vertex of the same impurity quantities, provided the impurity chi and chi0 are symmetric in the PH grouping (the routine takes one triangle vertex for both sides).", "quantifier": "every impurity chi0, chi and lattice bubble for which the inverses exist", "why_tests_cant": "non-trivial matrix identity", "anchors": ["python/triqs_tprf/dbse.py:36-144", "python/triqs_tprf/bse.py:51-118"]}
{"id": "C29", "title": "Frequency notation changes are bijections on the full frequency lattice and place the conserved frequency", "statement": "from_3nu_PH, from_3nu_PH_bar and from_3nu_PP read the three-frequency function at the arguments documented in the theory section (PH: n, n+w, n'+w; PH_bar: n, n', n'+w; PP: n, n', w-n), so that the implied fourth frequency n1-n2+n3 is n' (PH), n+w (PH_bar), w-n' (PP); each map (w,n,n') -> (n1,n2,n3) is a bijection of frequency triples. (Violated by PP: the third argument is w-n' instead of w-n, so the sum n1+n3 is not the transferred frequency w.)", "quantifier": "every integer frequency triple", "why_tests_cant": "infinite index set", "anchors": ["c++/triqs_tprf/freq_conv.cpp:131-147", "doc/theory/vertex.rst:92"]}
{"id": "C30", "title": "Block to tensor two-particle conversion is antisymmetric", "statement": "block_3nu_AABB_to_tensor_valued fills AABB components from the blocks and ABBA (A != B) components so that G_{a b c d}(n1,n2,n3) = -G_{a d c b}(n1,n1-n2+n3,n3) whenever the fermionic crossing partner was filled from a block, and zero elsewhere, although its second loop reads the memory it writes; block_iw_AB_to_matrix_valued returns the block-diagonal matrix of the blocks in order.", "quantifier": "every block Green's function, frequency triple, block indices", "why_tests_cant": "crossing symmetry for all indices", "anchors": ["c++/triqs_tprf/freq_conv.cpp:98-120"]}
{"id": "C31", "title": "Generalised susceptibility vanishes vertex corrections for Wick-factorised input", "statement": "If g2 is the Wick product of g in the notation the routines belong to (from_3nu_PH of the three-frequency Wick function, resp. from_3nu_PP), chi_from_gg2_PH equals chi0_from_gg2_PH and chi_from_gg2_PP equals chi0_from_gg2_PP exactly (the connected part is zero). (Violated for PP: chi_from_gg2_PP / chi0_from_gg2_PP belong to the crossed PPx notation of the theory page, neither to the documented PP notation nor to what from_3nu_PP produces.)", "quantifier": "every g, frequencies, orbital indices", "why_tests_cant": "identity over all inputs incl. sign and index order", "anchors": ["c++/triqs_tprf/chi_from_gg2.cpp:44-63"]}
{"id": "C32", "title": "Quadratic Hamiltonian round trip", "statement": "quadratic_matrix_from_operator(get_quadratic_operator(h, ops), ops) = h for every hermitian h and duplicate-free operator list; the operator built from the extracted matrix equals the operator one started from.", "quantifier": "every hermitian matrix, every list of distinct fundamental operators", "why_tests_cant": "all sizes and values", "anchors": ["python/triqs_tprf/OperatorUtils.py:54-65", "python/triqs_tprf/OperatorUtils.py:112-133"]}
{"id": "C33", "title": "Quartic tensor extraction represents the operator", "statement": "operator_from_quartic_tensor(quartic_tensor_from_operator(H, ops, perm_sym), ops) = H as an operator, for perm_sym True and False, for every quartic H over the given operators.", "quantifier": "every quartic operator, both options", "why_tests_cant": "uses canonical anticommutation relations, all coefficient sets", "anchors": ["python/triqs_tprf/OperatorUtils.py:192-251"]}
{"id": "C34", "title": "Symmetrising a quartic tensor does not change the Hamiltonian", "statement": "quartic_permutation_symmetrize and quartic_pauli_symmetrize leave the operator represented by the tensor unchanged; quartic_conjugation_symmetrize leaves it unchanged for hermitian H; all are idempotent and the output has the stated symmetry; the combination order in symmetrize_quartic_tensor keeps all symmetries.", "quantifier": "every tensor, every orbital number", "why_tests_cant": "algebraic identity over CAR", "anchors": ["python/triqs_tprf/OperatorUtils.py:136-189"]}
{"id": "C35", "title": "Single particle basis change is an algebra homomorphism", "statement": "operator_single_particle_transform(op, U) substitutes c_k -> sum_l U_kl c_l (and the conjugate for c_k^+) for the listed operators and keeps the others; it is linear, the identity for U=1, composes as transform(.,U) then V = transform(.,UV) for all matrices, respects products of operators exactly when U is unitary, and turns a quadratic form h into U^dagger h U.", "quantifier": "every operator, every matrix", "why_tests_cant": "all operators and matrices", "anchors": ["python/triqs_tprf/OperatorUtils.py:254-309"]}
{"id": "C36", "title": "Relabelling operators is a simultaneous substitution", "statement": "relabel_operators(op, from, to) replaces all listed operators simultaneously (swaps work), leaves operators outside the list untouched, and relabelling back restores the operator when the lists are duplicate-free, treat an operator and its conjugate alike, and no operator occurring in op is a target without being a source.", "quantifier": "every operator and injective relabelling", "why_tests_cant": "simultaneous versus sequential substitution differ only on some inputs", "anchors": ["python/triqs_tprf/OperatorUtils.py:312-344"]}
{"id": "C37", "title": "RPA tensor is crossing antisymmetric and encodes the Hamiltonian", "statement": "get_rpa_tensor(H) is antisymmetric under exchange of either the two creation or the two annihilation indices in the documented order, and the Hamiltonian is recovered as 1/4 of its contraction.", "quantifier": "every quartic operator", "why_tests_cant": "index order conventions over all tensors", "anchors": ["python/triqs_tprf/rpa_tensor.py:58-84 get_rpa_tensor/get_gamma_rpa"]}
{"id": "C38", "title": "Charge/spin splitting round trips", "statement": "split_quartic_tensor_in_charge_and_spin(quartic_tensor_from_charge_and_spin(Uc,Us)) = (Uc,Us), and for spin-conserving SU(2) symmetric tensors the reverse composition is the identity; likewise for general_susceptibility_from_charge_and_spin / charge_and_spin_susceptibility_from_general, with spin-fast and spin-slow ordering.", "quantifier": "every pair of tensors, every orbital number, both orderings", "why_tests_cant": "block index arithmetic for all sizes", "anchors": ["python/triqs_tprf/rpa_tensor.py:123-195", "python/triqs_tprf/rpa_tensor.py:259-356"]}
{"id": "C39", "title": "Kanamori tensors from both implementations agree and match the Hamiltonian", "statement": "kanamori_charge_and_spin_quartic_interaction_tensors equals get_rpa_uc_tensor/get_rpa_us_tensor after the documented axis swap, and kanamori_quartic_tensor splits back into them; for all U, U', J, J' the tensor equals the RPA tensor of the Kanamori Hamiltonian printed in its docstring. (Violated for the literal docstring formula: it has the hermitian conjugate inside a sum over ordered pairs i != j and so counts spin flip and pair hopping twice; holds with each term counted once and pair hopping amplitude J'.)", "quantifier": "every U, U', J, J', every orbital number", "why_tests_cant": "case distinctions on index equality for all sizes", "anchors": ["python/triqs_tprf/rpa_tensor.py:87-120", "python/triqs_tprf/rpa_tensor.py:198-233", "python/triqs_tprf/matrix_rpa.py:79-142"]}
{"id": "C40", "title": "Dropping the spin degree of freedom keeps the up component", "statement": "lose_spin_degree_of_freedom returns the spin-up block as documented for both orderings. (Violated for spin_fast=False where the down block is returned; harmless for spin-symmetric input.)", "quantifier": "every Green's function", "why_tests_cant": "tests use spin-symmetric data", "anchors": ["python/triqs_tprf/rpa_tensor.py:236-256", "python/triqs_tprf/matrix_rpa.py:51-76"]}
{"id": "C41", "title": "RPA decouples into charge and spin", "statement": "Solving the RPA with the spinful SU(2) symmetric interaction tensor and then splitting into charge and spin gives the same as solving the charge channel with -U_c and the spin channel with U_s.", "quantifier": "every bubble, U_c, U_s, orbital count", "why_tests_cant": "block diagonalisation for all tensors", "anchors": ["python/triqs_tprf/rpa_tensor.py:123-195", "c++/triqs_tprf/lattice/rpa.cpp:29-64"]}
{"id": "C42", "title": "Enforced symmetry holds afterwards", "statement": "After enforce_symmetry(gf, v, s), the returned function has the requested parity in frequency, momentum and orbital space and check_symmetry reports it. (Violated for orbital symmetry with four or more orbitals: upper and lower triangle are paired in the wrong order.)", "quantifier": "every Green's function, mesh, orbital count", "why_tests_cant": "pairing error is invisible for up to three orbitals", "anchors": ["python/triqs_tprf/symmetries.py:27-71", "python/triqs_tprf/symmetries.py:167-189", "python/triqs_tprf/symmetries.py:290-318", "python/triqs_tprf/symmetries.py:406-426"]}
{"id": "C43", "title": "Enforcing a symmetry that already holds changes nothing", "statement": "enforce_symmetry applied to a function that already has the requested symmetry returns it unchanged; hence it is idempotent. (Violated for odd orbital symmetry: off-diagonal elements change sign each time.)", "quantifier": "every Green's function, every symmetry", "why_tests_cant": "tests check the parity of the result, not that the values are kept", "anchors": ["python/triqs_tprf/symmetries.py:100-103 _average_halfs", "python/triqs_tprf/symmetries.py:406-426"]}
{"id": "C44", "title": "Enforcing several symmetries: later ones do not destroy earlier ones", "statement": "enforce_symmetry(gf, [v1,v2,...], [s1,s2,...]) yields a function with all requested symmetries regardless of order, and never modifies the input.", "quantifier": "every Green's function and every list of variable/symmetry pairs with distinct variables", "why_tests_cant": "commutation of projections for all data", "anchors": ["python/triqs_tprf/symmetries.py:27-71"]}
{"id": "C45", "title": "Hermitian parametrisation in the constrained DLR fit round trips", "statement": "In fitdlr, setting diagonal and upper-triangle parameters produces a hermitian matrix per time slice, and reading the parameters back returns them. (Violated by Symmetrizer for four or more orbitals and BlockSymmetrizer whenever the number of independent upper-triangle entries differs from n(n-1)/2.)", "quantifier": "every number of orbitals, every parameter vector, every block structure", "why_tests_cant": "fails only for larger orbital spaces", "anchors": ["python/triqs_tprf/fitdlr.py:401-505"]}
{"id": "C46", "title": "Hartree-Fock density vectorisation is a bijection on hermitian matrices", "statement": "vec2mat(mat2vec(rho)) = rho for hermitian rho and mat2vec(vec2mat(v)) = v; vec2mat always returns a hermitian matrix; the Hartree variants do the same for real diagonal matrices.", "quantifier": "every orbital number, every matrix/vector", "why_tests_cant": "all sizes", "anchors": ["python/triqs_tprf/hf_solver.py:464-502", "python/triqs_tprf/hf_solver.py:553-560"]}
{"id": "C47", "title": "The mean field is hermitian and equals the derivative of the interaction energy", "statement": "For a hermitian interaction Hamiltonian and hermitian density matrix the mean field computed by update_mean_field is hermitian, linear in the density, and E_int returned equals -1/2 tr(M rho).", "quantifier": "every interaction tensor with the RPA tensor symmetries, every hermitian density", "why_tests_cant": "all tensors", "anchors": ["python/triqs_tprf/hf_solver.py:142-146", "python/triqs_tprf/hf_solver.py:214-219"]}
{"id": "C48", "title": "The Hartree-Fock total energy is the expectation value of the Hamiltonian", "statement": "update_total_energy's E_tot equals the expectation value of H_kin + H_int in the mean-field state (Wick). (Violated: the interaction energy enters with the opposite sign, e.g. -U n_up n_dn for the Hubbard interaction.)", "quantifier": "every interaction, every density matrix", "why_tests_cant": "tests compare Omega or densities, not E_tot against Wick's theorem", "anchors": ["python/triqs_tprf/hf_solver.py:214-231", "python/triqs_tprf/rpa_tensor.py:58-70"]}
{"id": "C49", "title": "Hartree-Fock iteration returns the fixed point data it reports", "statement": "solve_iter performs at most nitermax density steps, the recorded history satisfies rho_{i+1} = (1-mixing) rho_i + mixing F(rho_i), it stops exactly at the first i with relative change below tol, and mixing=0 keeps the density constant.", "quantifier": "every step map F, norm, mixing in [0,1], tolerance, iteration limit", "why_tests_cant": "loop invariant over all step maps", "anchors": ["python/triqs_tprf/hf_solver.py:275-346"]}
{"id": "C50", "title": "ParameterCollection copies are independent and alter is pure", "statement": "alter(k=v) returns a collection equal to the original except at the given keys; the original is unchanged; later alter calls override earlier; copy equals the original key by key.", "quantifier": "every sequence of alter/copy calls", "why_tests_cant": "all histories", "anchors": ["python/triqs_tprf/ParameterCollection.py:73-100"]}
{"id": "C51", "title": "Parameter scan is the cartesian product", "statement": "parameter_scan(p, k1=l1,..., kn=ln) returns exactly len(l1)*...*len(ln) collections, in row-major order, element with multi-index (i1..in) being p.alter(k1=l1[i1],...).", "quantifier": "every template and every family of value lists", "why_tests_cant": "all sizes", "anchors": ["python/triqs_tprf/ParameterCollection.py:260-305"]}
{"id": "C52", "title": "Separate ParameterCollections objects do not share contents", "statement": "Appending to one ParameterCollections created without arguments does not change another. (Violated: the default list is shared.) Holds when each is created with its own list.", "quantifier": "every sequence of constructor/append calls", "why_tests_cant": "aliasing over all histories", "anchors": ["python/triqs_tprf/ParameterCollection.py:205-209"]}
{"id": "C53", "title": "Timer accounting is conservative", "statement": "For every properly nested start/stop history, the inclusive time of each name is the sum of its interval lengths, exclusive times plus 'Other' sum to the total, write() leaves running timers running, and add() merges the times of another timer path by path.", "quantifier": "every start/stop/write history and every clock", "why_tests_cant": "state machine over all histories", "anchors": ["python/triqs_tprf/ase_timing.py:54-180"]}
{"id": "C54", "title": "A refused Timer.stop leaves the timer unchanged", "statement": "When stop(name) is refused because another timer is on top of the stack, the timer's state is as before the call. (Violated: the top timer is already removed from the stack and its accumulated time is corrupted.)", "quantifier": "every history followed by a mismatched stop", "why_tests_cant": "error path over all states", "anchors": ["python/triqs_tprf/ase_timing.py:90-100"]}
{"id": "C55", "title": "Wannier90 hopping parser returns H(R)/degeneracy for each R", "statement": "For every well-formed hr.dat (each lattice vector with all orbital pairs exactly once, first appearance in the order of the degeneracies), parse_hopping_from_wannier90_hr_dat returns for each lattice vector R the matrix whose (n,m) entry is the listed amplitude divided by the degeneracy of R; no entry is lost and nothing else is nonzero. Files with other counts of degeneracies or hopping lines than the header announces are refused. (Violated for a file with a single row, i.e. one orbital and one lattice vector, which is refused.)", "quantifier": "every num_wann, nrpts (also nrpts multiple of 15), data", "why_tests_cant": "sizes and orderings", "anchors": ["python/triqs_tprf/wannier90.py:38-116"]}
{"id": "C56", "title": "Reducing the frequency window keeps the central frequencies", "statement": "G2_loc_fixed_fermionic_window_python and fixed_fermionic_window_python_wnk with window nwf return exactly the entries with fermionic index in [-nwf, nwf), unchanged, and refuse windows larger than the input. (Violated by fixed_fermionic_window_python_wnk: a window one larger than the input is accepted and silently filled with copies of the last frequency.)", "quantifier": "every input and every window", "why_tests_cant": "slice arithmetic for all sizes", "anchors": ["python/triqs_tprf/utilities.py:130-153", "python/triqs_tprf/bse.py:121-155"]}
{"id": "C57", "title": "Temperature conversion is an involution with the right unit", "statement": "temperature_to_beta(beta_to_temperature(b)) = b for b != 0, the conversions are strictly decreasing on positive values, and k_B T beta = 1 with the SI value of k_B in eV/K up to one part in a million.", "quantifier": "every non-zero real", "why_tests_cant": "infinite domain", "anchors": ["python/triqs_tprf/utilities.py:156-174"]}
{"id": "C58", "title": "Linearised Eliashberg product: explicit sum equals FFT evaluation", "statement": "For the same vertex split into its dynamic part and its constant part, eliashberg_product_fft and eliashberg_product_fft_constant (via tau and r) compute the explicit double sum of eliashberg_product. With transforms without tail corrections and a dynamic part vanishing outside the mesh of the vertex this holds exactly, on every frequency and momentum of the gap, whenever the time mesh is long enough to avoid aliasing, which the default meshes are. With the tail corrections of the transforms, both routes converge to the same product in imaginary time when the meshes grow: the Fourier route is within C (1/N^2 + 1/NG^2) of it, the explicit sum over all frequencies equals it and the sum over the window of the gap tends to it. The two routines never accept the same vertex mesh with default time meshes, so the comparison needs vertices on two meshes.", "quantifier": "every vertex, Green's function, gap on discrete periodic meshes; for the limit every vertex and anomalous Green's function smooth in imaginary time, the latter without jump, and tail fits accurate to order 1/N^2", "why_tests_cant": "convolution theorem over all data", "anchors": ["c++/triqs_tprf/lattice/eliashberg.cpp:134-169", "c++/triqs_tprf/lattice/eliashberg.cpp:191-317"]}
{"id": "C59", "title": "The Eliashberg product matches the documented equation", "statement": "For Green's functions with G(-iv,k) = G(iv,k)^dagger eliashberg_product computes lambda Delta_{ab}(K) = -1/(2 N beta) sum_{K'} Gamma_{cadb}(K-K') G_{cf}(K') G_{de}(-K') Delta_{ef}(K') as in the theory documentation. The header of eliashberg_product documents G_{ce} G_{df} Delta_{ef} instead, which is the same equation for the transposed gap, hence agrees up to sign for gaps (anti)symmetric under orbital exchange and differs otherwise.", "quantifier": "every vertex, Green's function, gap", "why_tests_cant": "tests use one orbital or orbital-symmetric gaps", "anchors": ["c++/triqs_tprf/lattice/eliashberg.cpp:36-67", "c++/triqs_tprf/lattice/eliashberg.cpp:134-169", "c++/triqs_tprf/lattice/eliashberg.hpp", "doc/theory/eliashberg.rst"]}
{"id": "C60", "title": "The Eliashberg product is linear and preserves parity", "statement": "eliashberg_product is linear in the gap. If vertex and Green's function are inversion symmetric it maps gaps even (odd) in momentum to gaps even (odd) in momentum. For Green's functions with G(-iv)=G(iv)^dagger and an exchange symmetric vertex it commutes with the simultaneous reversal of frequency and momentum and exchange of orbitals; for a single orbital it hence keeps the parity in frequency.", "quantifier": "every gap, vertex, Green's function with the symmetry", "why_tests_cant": "all data", "anchors": ["c++/triqs_tprf/lattice/eliashberg.cpp:134-169"]}
{"id": "C61", "title": "RPA singlet/triplet vertices follow the documented combination", "statement": "construct_gamma_singlet_rpa returns the documented combination of the ladder vertices 3 Phi_m - Phi_d (+ constant terms), triplet -Phi_m - Phi_d. (Singlet documentation and code differ in the sign of Phi_d.) construct_phi_wk returns U chi U in the pair grouping.", "quantifier": "every U, chi", "why_tests_cant": "sign conventions over all inputs", "anchors": ["python/triqs_tprf/eliashberg.py:443-549", "c++/triqs_tprf/lattice/eliashberg.cpp:328-361"]}
{"id": "C62", "title": "Power method returns an eigenpair when it converges", "statement": "power_method_LR makes at most max_it passes per stage, returns a vector of unit norm, and the returned pair satisfies A v = lambda v up to the tolerance. (Violated when the eigenvalue largest in magnitude is found to be negative: starting from an eigenvector with negative eigenvalue always ends in an exception, and a sign-alternating second stage returns a wrong eigenvalue.)", "quantifier": "every linear map, start vector, tolerance, limit", "why_tests_cant": "loop invariant for all maps", "anchors": ["python/triqs_tprf/eliashberg.py:338-398"]}
{"id": "C63", "title": "allclose_by_scalar_multiplication accepts exactly scalar multiples", "statement": "Returns True for every pair of arrays that are non-zero multiples of each other, and False otherwise. (Violated: false positives exist because only ratios at non-zero entries are compared.)", "quantifier": "every pair of arrays", "why_tests_cant": "tests use dense random arrays", "anchors": ["python/triqs_tprf/eliashberg.py:401-440"]}
{"id": "C64", "title": "Both Hartree self energy routines agree", "statement": "hartree_sigma from (v_k, g_wk) equals hartree_sigma from (v_k, rho_r) for the same density. (Violated for momentum-dependent interactions; holds for momentum-independent ones.)", "quantifier": "every interaction and density", "why_tests_cant": "tests use local interactions", "anchors": ["c++/triqs_tprf/lattice/gw.cpp:115-150"]}
{"id": "C65", "title": "Both Fock self energy routines agree", "statement": "fock_sigma computed as real-space product equals the momentum-space convolution in every orbital component. (Holds for V(-q)=V(q); violated otherwise, where the real-space routine uses V at the opposite momentum transfer.)", "quantifier": "every interaction and density", "why_tests_cant": "convolution theorem for all data", "anchors": ["c++/triqs_tprf/lattice/gw.cpp:152-197"]}
{"id": "C66", "title": "The GW self energy is the documented sum of its parts, linear in the interaction", "statement": "On matching meshes gw_sigma equals the dynamic part (imaginary-time product transformed back) plus the exchange with the static part of the interaction; it is linear in W and zero for W = 0; mismatched temperatures, statistics, momentum meshes or frequency counts are refused rather than silently combined; for a frequency-independent interaction it equals the static overload. (The documented static sum with rho(k+q), and the agreement of the overloads, hold for V(-q)=V(q) and are violated otherwise.)", "quantifier": "every W, V, g", "why_tests_cant": "all inputs", "anchors": ["c++/triqs_tprf/lattice/gw.cpp:79-112", "c++/triqs_tprf/lattice/gw.cpp:199-245", "c++/triqs_tprf/lattice/gw.cpp:391-412"]}
{"id": "C67", "title": "Real-time bubble from lesser and greater functions", "statement": "g0_Tk_les_gtr_from_e_k yields i(G^> - G^<)(T=0)=1 and both functions satisfy G(T)^dagger = -G(-T); chi0_Tr_from_g_Tr_PH at T=0 is local and equals the commutator expectation value; its one-sided Fourier transform with broadening equals lindhard_chi00 on the real frequency mesh (time reversal symmetric dispersions); and it returns the documented expression iG^<(t)G^>(-t) - iG^>(t)G^<(-t). (The last claim is violated: the sign is opposite.)", "quantifier": "every hermitian dispersion, mesh, temperature", "why_tests_cant": "identities for all inputs", "anchors": ["c++/triqs_tprf/lattice/chi_retime.cpp:40-122", "c++/triqs_tprf/lattice/chi_retime.hpp:30-45"]}
{"id": "C68", "title": "Square lattice tight binding models are hermitian", "statement": "create_square_lattice returns hoppings with t(-r) = t(r)^dagger for every norb and for the complex t, tp, zeeman its documentation allows, thus a hermitian dispersion; a Zeeman term without spin is refused. (Violated for amplitudes with non-zero imaginary part; holds for real ones.)", "quantifier": "every norb and hopping amplitude", "why_tests_cant": "all parameter values", "anchors": ["python/triqs_tprf/tight_binding.py:31-101"]}
{"id": "C69", "title": "extend_data_on_boundary is the periodic extension", "statement": "extend_data_on_boundary(values, nk) returns an array with nk+1 points per direction whose entries are the periodic continuation of the input.", "quantifier": "every mesh size and data", "why_tests_cant": "slice arithmetic for all sizes", "anchors": ["python/triqs_tprf/lattice_utils.py:440-468"]}
{"id": "C70", "title": "Tensor/matrix Green's function reshaping round trips", "statement": "gf_matrix_to_tensor(gf_tensor_to_matrix(g)) = g and conversely, and the matrix product of reshaped tensors is the pair contraction.", "quantifier": "every orbital number", "why_tests_cant": "all sizes", "anchors": ["python/triqs_tprf/lattice_utils.py:509-526"]}
{"id": "C71", "title": "Hubbard atom functions solve the Bethe-Salpeter equation", "statement": "At every bosonic frequency the analytic magnetic susceptibility chi_m, bubble chi0_m and vertex gamma_m returned for the Hubbard atom (analytic_hubbard_atom; chi_ph_magnetic, gamma_ph_magnetic, single_particle_greens_function) solve the Bethe-Salpeter equation gamma = chi0^-1 - chi^-1 as a problem of infinite matrices in the fermionic frequencies, as the documentation says: chi gamma chi0 = chi - chi0 and chi0 gamma chi = chi - chi0, all frequency sums converging.", "quantifier": "for all beta > 0, U > 0, all bosonic and fermionic Matsubara frequencies at which no denominator of the closed formulas vanishes", "why_tests_cant": "The equation involves infinite sums over frequencies and all temperatures; a test compares a finite window at one temperature, with a tolerance that grows with the truncation, and misses that the formula fails at every temperature above a threshold.", "anchors": ["c++/triqs_tprf/hubbard_atom.cpp:43-146", "python/triqs_tprf/analytic_hubbard_atom.py:41-120"]}
{"id": "C72", "title": "Eliashberg ingredients use the density and magnetic channel consistently", "statement": "create_eliashberg_ingredients builds the density susceptibility with the density-channel RPA equation (repulsion suppresses it) and the magnetic one with the magnetic-channel RPA equation (repulsion enhances it), consistently with chi_rpa_charge / chi_rpa_spin. (Violated: the signs of the interactions are exchanged between the two channels.)", "quantifier": "every bubble and Kanamori interaction", "why_tests_cant": "only eigenvalues of the assembled vertex are compared to stored references", "anchors": ["python/triqs_tprf/utilities.py:177-207 create_eliashberg_ingredients", "python/triqs_tprf/matrix_rpa.py:215-257"]}
{"id": "C73", "title": "Timer records match interval semantics under the decorator", "statement": "A method wrapped by the timing decorator leaves the stack of running timers as it found it whether the method returns or raises. (Violated when the method raises: the timer keeps running.)", "quantifier": "every method behaviour and every timer state", "why_tests_cant": "exception path over all states", "anchors": ["python/triqs_tprf/ase_timing.py:183-212"]}
{"id": "C74", "title": "Lattice Green's function conjugation symmetry", "statement": "For a hermitian dispersion, a real chemical potential and a self energy obeying Sigma(-iw,k)=Sigma(iw,k)^dagger, the Green's function returned by the lattice Dyson functions obeys G(-iw,k)=G(iw,k)^dagger at every mesh point.", "quantifier": "every hermitian dispersion, self energy with the symmetry, frequency mesh closed under w -> -w, number of ranks", "why_tests_cant": "tests compare a few numeric values for one model", "anchors": ["c++/triqs_tprf/lattice/gf.cpp:91-123 lattice_dyson_g_Xk"]}
{"id": "C75", "title": "Hartree-Fock density matrix is the Fermi function of the mean-field Hamiltonian", "statement": "The density matrix of a Hartree-Fock step is hermitian, does not depend on which eigenbasis the diagonalisation returns for degenerate levels, has occupations strictly between 0 and 1, its trace is the particle number of the mean-field levels, and the derivative of the reported non-interacting free energy with respect to mu is minus that trace.", "quantifier": "every hermitian mean-field dispersion, number of k points, beta != 0, mu, choice of eigenvectors", "why_tests_cant": "degenerate subspaces and thermodynamic identities cannot be enumerated", "anchors": ["python/triqs_tprf/hf_solver.py:174-202"]}
{"id": "C76", "title": "Sorting a series of parameter collections only reorders it", "statement": "sort_on(attr) (through set_sorted_order) keeps exactly the members of the series, puts the values of the attribute in ascending order, and does not modify the list object the series was created from.", "quantifier": "every series, every attribute present in all members, every argsort result", "why_tests_cant": "all sizes, ties and aliasing", "anchors": ["python/triqs_tprf/ParameterCollection.py:211-221"]}
{"id": "C77", "title": "Real-frequency G0W self energy: static part, basis independence, refusals", "statement": "g0w_sigma does not depend on which eigenvectors the diagonalisation returns; its static part for density-density interactions is the Fock self energy of the non-interacting density matrix; an unscreened interaction gives no dynamic part; the total is static plus dynamic part; the mesh and single-momentum overloads agree; differing momentum meshes are refused; the result is finite. (Finiteness violated: a frequency mesh containing zero evaluates the Bose function at its pole.)", "quantifier": "every dispersion, interaction, temperature, chemical potential, mesh", "why_tests_cant": "degenerate bands make eigenvectors ambiguous; tests use few models and meshes that avoid zero", "anchors": ["c++/triqs_tprf/lattice/gw.cpp:261-412"]}
{"id": "C78", "title": "The spectral formula of g0w_sigma continues the Matsubara GW self energy", "statement": "The spectral function extracted from a retarded screened interaction has the weight and position of its modes. Evaluated at a fermionic Matsubara frequency, the spectral formula of g0w_dynamic_sigma equals the Fourier integral of the imaginary-time product -W G used by the Matsubara GW routines, for an interaction with that spectral function (symmetric frequency set without zero, bosonic symmetry of the spectral function).", "quantifier": "every dispersion, spectral function, temperature, frequency and momentum", "why_tests_cant": "tests compare two numerical results for one model with finite broadening", "anchors": ["c++/triqs_tprf/lattice/gw.cpp:261-304", "c++/triqs_tprf/lattice/gw.cpp:79-104"]}
{"id": "C79", "title": "The real-frequency G0W self energy is causal", "statement": "For a screened interaction with the spectral sign of a passive medium the diagonal elements of the dynamic self energy have non-positive imaginary part at every frequency and momentum.", "quantifier": "every dispersion, interaction with that sign, temperature, broadening > 0", "why_tests_cant": "a sign condition on all inputs", "anchors": ["c++/triqs_tprf/lattice/gw.cpp:261-304"]}
{"id": "C80", "title": "A constant part given for the pairing vertex is used", "statement": "preprocess_gamma_for_fft splits the pairing vertex into a dynamic and a constant part which add up to it; if the caller supplies the constant part (a number, an array or a Green's function) exactly this one is used, otherwise the fitted one (zero on DLR meshes). (Violated: integers, complex numbers and NumPy scalars are silently replaced by the fit; on DLR meshes numbers and arrays raise.)", "quantifier": "every vertex, lattice and constant part", "why_tests_cant": "tests pass only floats or nothing, and compare after the transform", "anchors": ["python/triqs_tprf/eliashberg.py:196-255 preprocess_gamma_for_fft", "c++/triqs_tprf/lattice/lattice_utility.cpp: split_into_dynamic_wk_and_constant_k"]}
{"id": "C81", "title": "Hubbard atom susceptibility conserves spin and has the stated static limit", "statement": "The magnetic susceptibility chi_m returned for the Hubbard atom, summed over both fermionic frequencies and divided by beta^2, is zero at every nonzero bosonic frequency (the spin of the atom is conserved) and equals the static susceptibility chi_m_static returned in the same parameter collection at zero bosonic frequency.", "quantifier": "for all beta > 0, U > 0 and all bosonic Matsubara frequencies; the double sum runs over all fermionic frequencies", "why_tests_cant": "The sums are infinite and converge slowly; a test on a finite window cannot tell a small violation from truncation, and can only sample temperatures.", "anchors": ["c++/triqs_tprf/hubbard_atom.cpp:49-89 chi_ph_magnetic", "python/triqs_tprf/analytic_hubbard_atom.py:40-122 analytic_hubbard_atom"]}
{"id": "C82", "title": "Bare mean field response is a derivative of the thermal average", "statement": "For a Hartree-Fock solver object holding a mean field dispersion, HartreeFockResponse.bare_response(op1, op2) tends, for a vanishing finite difference step, to minus the derivative of the thermal average of op2 per unit cell with respect to the strength of a field op1 added to the mean field Hamiltonian. (Violated for complex hermitian dispersions: with the Hamiltonian sigma_y + sigma_z the response of sigma_z to a field along sigma_y is returned as exactly zero although the derivative is not.)", "quantifier": "all numbers of orbitals and momenta, all dispersions, chemical potentials, temperatures, operators and eigensolvers", "why_tests_cant": "tests use real dispersions and a few operators and compare numbers obtained with one finite step", "anchors": ["python/triqs_tprf/hf_response.py:30-157 BaseResponse", "python/triqs_tprf/hf_response.py:180-262 HartreeFockResponse"]}
{"id": "C83", "title": "Mean field response is the derivative of the self-consistent average", "statement": "For a differentiable branch of self-consistent Hartree(-Fock) solutions in an external field op1 at fixed chemical potential, response(op1, op2) of HartreeFockResponse and HartreeResponse tends, for a vanishing step, to minus the derivative of the self-consistent average of op2; at any step the response tensor is the unique solution of chi = chi0 + chi0 U chi. HartreeResponse refuses operators that are not diagonal.", "quantifier": "all numbers of orbitals and momenta, dispersions, temperatures, interactions with the symmetries of get_rpa_tensor, operators and eigensolvers, away from an instability", "why_tests_cant": "tests compare with a finite field at a handful of parameters; the limit and the validity for all interactions cannot be sampled", "anchors": ["python/triqs_tprf/hf_response.py:180-262 HartreeFockResponse", "python/triqs_tprf/hf_response.py:264-323 HartreeResponse", "python/triqs_tprf/hf_solver.py: HartreeFockSolver"]}
{"id": "C84", "title": "The finite difference step and the momentum resolved bubble of the response classes", "statement": "The step eps given to HartreeFockResponse or HartreeResponse is the step of the finite differences, and compute_chi0_k returns the momentum resolved bubble. (Violated: eps is never passed on, 1e-9 is always used; compute_chi0_k always raises AttributeError.)", "quantifier": "every solver object, step and eigensolver", "why_tests_cant": "tests never pass a step and never call compute_chi0_k; that a parameter is without effect for every input is not visible in a sample", "anchors": ["python/triqs_tprf/hf_response.py:40-65 BaseResponse.__init__", "python/triqs_tprf/hf_response.py:195-211 HartreeFockResponse.__init__", "python/triqs_tprf/hf_response.py:255-262 compute_chi0_k", "python/triqs_tprf/hf_response.py:280-290 HartreeResponse.__init__"]}
{"id": "C85", "title": "The chemical potential search finds the filling", "statement": "HartreeFockSolver.update_chemical_potential(N) changes only the chemical potential and leaves the mean field bands filled with N particles per unit cell within the tolerance of the root finder (n beta/4 times its tolerance on mu); the solution is unique and exists for every 0 < N < number of orbitals; the search accepts exactly the fillings between those at the ends of its range (mu_min, mu_max, by default bottom and top of the mean field bands). (Violated: for flat bands every filling except half filling is refused with the default range; mu0 is without effect.)", "quantifier": "all dispersions, mean fields, temperatures, fillings, search ranges, eigensolvers and bracketing root finders obeying their documentation", "why_tests_cant": "tests use one dispersive band; the set of refused fillings and the accuracy for all bands cannot be sampled", "anchors": ["python/triqs_tprf/hf_solver.py:153-171 update_chemical_potential", "python/triqs_tprf/hf_solver.py:251-272 solve_setup"]}
{"id": "C86", "title": "The mean field solver reports one consistent state", "statement": "After solve_iter, solve_newton or solve_newton_mu the attributes belong to one state: M is the mean field of a density matrix, e_k_MF = e_k + M, rho_kab and rho_ab are the thermal density matrices of e_k_MF at mu, N_tot is their trace and equals N_target within the tolerance of the root finder (fixed number) or mu is the given one, and E_kin, E_int, E_tot, Omega0 (free particle grand potential) and Omega belong to the same density matrix; a forward iteration that stopped early reproduces its last density matrix within tol. (Violated for solve_newton: the chemical potential is the one of the last point the root finder evaluated, not of the point it returned.)", "quantifier": "all dispersions, interactions, temperatures, targets, starting mean fields, vectorisations, eigensolvers and root finders", "why_tests_cant": "tests check final densities of converged runs; the state after any sequence of root finder evaluations cannot be enumerated", "anchors": ["python/triqs_tprf/hf_solver.py:234-248 density_matrix_step", "python/triqs_tprf/hf_solver.py:275-346 solve_iter", "python/triqs_tprf/hf_solver.py:349-382 solve_newton", "python/triqs_tprf/hf_solver.py:385-430 solve_newton_mu", "python/triqs_tprf/hf_solver.py:222-231 update_total_energy"]}
{"id": "C87", "title": "The GW solver reports one consistent state", "statement": "After GWSolver.solve_iter with at least one iteration the attributes are those of the last of m+1 <= maxiter correct GW iterations started from the Green's function and chemical potential held before: sigma_wk is the sum of the enabled parts (Hartree from V(q=0) and the zone averaged density matrix, Fock as momentum convolution of V and the density matrix, dynamic part as -W_dyn G in imaginary time and real space), all computed from the previous Green's function; W_wk solves W = V + V P W with P = -G G (doubled if spinless) and W_dyn = W - V; g_wk solves the Dyson equation with sigma_wk and mu; rho_k, rho_r, N are those of g_wk; chi_wk solves chi = P + P V chi; m < maxiter-1 only if the last two Green's functions differ by less than tol everywhere; n calls can be split (restart). (Violated: parts that are switched off in a later call keep their old value; maxiter=0 resets sigma_wk without touching g_wk.)", "quantifier": "all lattices, numbers of orbitals, dispersions, interactions, temperatures, starting Green's functions, switches, tolerances, iteration limits, ranks, and all transforms, density functionals and root finders", "why_tests_cant": "tests run a few dimers to convergence; the relation between all reported quantities after any number of iterations cannot be sampled", "anchors": ["python/triqs_tprf/gw_solver.py:68-106 GWSolver.__init__", "python/triqs_tprf/gw_solver.py:184-289 steps", "python/triqs_tprf/gw_solver.py:292-385 GWSolver.solve_iter"]}
{"id": "C88", "title": "The GW interaction tensor represents the operator", "statement": "get_gw_tensor(H_int, fundamental_operators) returns V with H_quartic = 1/2 sum V_abcd c+_a c+_c c_d c_b and V_abcd = V_cdab; it is refused exactly when the operator has a four operator term not of the form c+ c+ c c; with this tensor at every momentum the Hartree plus Fock self energy of the GW solver is, for every density matrix, the mean field that the Hartree-Fock solver computes from get_rpa_tensor of the same operator with the zone averaged density. (Violated: the docstring calls the tensor antisymmetrized; it is not.)", "quantifier": "all canonical operators, all lists of fundamental operators without repetition, all density matrices and lattices", "why_tests_cant": "tests compare single numbers for Hubbard dimers; the identity for all operators and density matrices cannot be enumerated", "anchors": ["python/triqs_tprf/gw.py:94-108 get_gw_tensor", "python/triqs_tprf/gw_solver.py:196-202", "python/triqs_tprf/hf_solver.py:194-207"]}
{"id": "C89", "title": "Fixed density in the GW solver", "statement": "A GWSolver with N_fix that returns from solve_iter has a chemical potential, inside the search interval and within the tolerance of the root finder, at which the reported self energy gives exactly N_fix particles; the search succeeds whenever such a chemical potential exists; and the reported N differs from N_fix by at most N_tol. (The last two are violated: the default interval is the range of the real parts of the matrix elements of the bare dispersion, so a Hartree shift can make the first iteration raise ValueError; and N_tol is passed on as the relative tolerance of mu.)", "quantifier": "all lattices, dispersions, interactions, temperatures, fillings, intervals, and all bracketing root finders obeying their documentation", "why_tests_cant": "tests fix the density of symmetric models, where the chemical potential is inside the bare band; the set of refused problems and the error in N cannot be sampled", "anchors": ["python/triqs_tprf/gw_solver.py:71-106 GWSolver.__init__ (N_fix, N_tol, mu_bracket)", "python/triqs_tprf/gw_solver.py:257-277 dyson_equation"]}
{"id": "C90", "title": "Meaning of the spinless switch of the GW solver", "statement": "GWSolver.solve_iter(spinless=True) gives, iteration by iteration, what each spin species has in the calculation with spin as an explicit index and an interaction between all spins: same chemical potential and stopping, Green's function and self energy (Fock and dynamic part) equal for each spin, W the interaction between any two spins, P the bubble with conserved spins, chi the susceptibility between equal spins, N half of the total. (Violated for the Hartree part, which counts one spin species only: half of the one with spin as an index.)", "quantifier": "all lattices, orbitals, dispersions, interactions, temperatures, starting Green's functions, tolerances and iteration numbers at free density, all transforms that map zero to zero", "why_tests_cant": "tests compare one iteration for a Hubbard dimer and add the Hartree term by hand", "anchors": ["python/triqs_tprf/gw_solver.py:236-247 screened_interaction, susceptibiltiy", "python/triqs_tprf/gw_solver.py:292-385 solve_iter"]}
{"id": "C91", "title": "Screening weakens a repulsive interaction", "statement": "For a positive semidefinite interaction between densities and the polarisation of the GW solver the equation for W is regular and 0 <= W <= V as matrices at zero frequency; the polarisation is minus the bubble of bubble_PI_wk and lindhard_chi00, whose static part between densities is positive semidefinite for every dispersion. (Violated by the documented combination: passing bubble_PI_wk or lindhard_chi00 as polarization bubble to dynamical_screened_interaction_W enhances the interaction.)", "quantifier": "all numbers of orbitals and momenta, dispersions, temperatures, interaction matrices, eigensolvers", "why_tests_cant": "tests compare W with an explicit inversion using the same sign and so cannot see it; positivity for all dispersions cannot be sampled", "anchors": ["python/triqs_tprf/gw.py:56-90 bubble_PI_wk", "python/triqs_tprf/gw_solver.py:229-241 polarization, screened_interaction", "c++/triqs_tprf/lattice/dynamical_screened_interaction.cpp:107-126", "c++/triqs_tprf/lattice/lindhard_chi00.cpp:33-95"]}
{"id": "C92", "title": "The bubble from the imaginary time route and the bubble from the imaginary frequency route are the same function", "statement": "For the same Green's function, summing chi0q_from_g_wk_PH over fermionic frequencies with chi0q_sum_nu converges, for growing frequency windows, to the Fourier transform of chi0_tr_from_grt_PH (and, without interactions, to lindhard_chi00), component by component and at every bosonic frequency.", "quantifier": "every Green's function that is a finite sum of poles (any number of orbitals and momenta), every temperature, bosonic frequency, momentum, orbital component and number of processes", "why_tests_cant": "a test compares one component of one time reversal symmetric band at zero frequency with finite windows; the statement is about limits and all components", "anchors": ["c++/triqs_tprf/lattice/chi_imfreq.cpp:chi0q_from_g_wk_PH", "c++/triqs_tprf/lattice/chi_imfreq.cpp:chi0q_sum_nu", "c++/triqs_tprf/lattice/chi_imtime.cpp:chi0_tr_from_grt_PH", "c++/triqs_tprf/lattice/chi_imtime.cpp:chi0_wr_from_grt_PH", "c++/triqs_tprf/lattice/lindhard_chi00.cpp:lindhard_chi00"]}
{"id": "C93", "title": "Momentum bookkeeping: relative coordinates, indices and periodic interpolation", "statement": "get_relative_k_from_absolute returns the coordinates of a momentum along the reciprocal basis; get_kidx_from_k_vec_relative gives back the index of every mesh point, for any error below half a spacing; the interpolators built from data on a momentum mesh pass through the data, are the trilinear interpolation of the periodically continued data everywhere in the unit cell, and give the same value on opposite faces.", "quantifier": "every invertible reciprocal basis, every mesh size in three directions, all data, every point of the unit cell", "why_tests_cant": "a test evaluates an interpolator at a few points of a cubic mesh; periodicity and agreement at all points for skew bases and unequal mesh sizes cannot be enumerated", "anchors": ["python/triqs_tprf/lattice_utils.py:get_relative_k_from_absolute", "python/triqs_tprf/lattice_utils.py:get_kidx_from_k_vec_relative", "python/triqs_tprf/lattice_utils.py:extend_data_on_boundary", "python/triqs_tprf/lattice_utils.py:get_rel_k_chi_interpolator", "python/triqs_tprf/lattice_utils.py:get_abs_k_chi_interpolator"]}
{"id": "C94", "title": "Moving Green's functions between Matsubara meshes keeps the value at every frequency", "statement": "put_gf_on_mesh returns a function whose value at every frequency of the new mesh is the value of the old function at the same frequency, or refuses; strip_sigma does this for a smaller frequency window and refuses other temperatures and larger windows; add_fake_bosonic_mesh adds one zero frequency and keeps all values.", "quantifier": "every pair of meshes (temperature, statistics, length), all values, every product mesh", "why_tests_cant": "a test moves one function between two meshes of equal temperature; what happens for other pairs of meshes and whether refused inputs are all refused is a statement about all pairs", "anchors": ["python/triqs_tprf/lattice_utils.py:put_gf_on_mesh", "python/triqs_tprf/lattice_utils.py:strip_sigma", "python/triqs_tprf/lattice_utils.py:add_fake_bosonic_mesh"]}
{"id": "C95", "title": "Contractions and index grouping of susceptibilities", "statement": "chi_contraction of a susceptibility with two one body operators is the correlator of these operators, and operators of another shape are refused; gf_tensor_to_matrix groups the first two and the last two indices and gf_matrix_to_tensor undoes it; pade_analytical_continuation_wk continues every component at every momentum on its own.", "quantifier": "every number of orbitals, all operators, all susceptibilities, every shape of the target space, every continuation method", "why_tests_cant": "a test contracts one susceptibility with one pair of operators; index order errors that cancel for symmetric operators stay unseen", "anchors": ["python/triqs_tprf/lattice_utils.py:chi_contraction", "python/triqs_tprf/lattice_utils.py:gf_tensor_to_matrix", "python/triqs_tprf/lattice_utils.py:gf_matrix_to_tensor", "python/triqs_tprf/lattice_utils.py:pade_analytical_continuation_wk"]}
{"id": "C96", "title": "VASP cRPA interactions end up at the right momentum with the right indices", "statement": "For files that together list every matrix element of every momentum of a mesh, read_vasp_crpa_vq_to_ndarray returns every momentum once and, for the selected orbitals, the tensor U_abcd equal to the element (b,a,d,c) of the file, independently of the order of files, momenta and rows. convert_from_ndarray_to_triqs puts the tensor of a momentum on the mesh point that represents it modulo reciprocal lattice vectors. read_vasp_crpa_vq_to_triqs returns the bare interaction VIJKL and the screened interaction UIJKL + (VIJKL - VRIJKL) on the mesh. Files that do not determine the interaction (missing momenta, momenta that differ between the three file sets) are refused.", "quantifier": "For all numbers of orbitals, all sets of momenta, all distributions of the momenta over the files, all row orders, all subsets of orbitals, all cells and meshes.", "why_tests_cant": "The output depends on the joint order of files, momenta and orbital tuples and on rounding of coordinates to mesh points; tests use one VASP output at one mesh size.", "anchors": ["python/triqs_tprf/vasp_crpa_parsers.py: read_vasp_crpa_vq_to_ndarray, convert_from_ndarray_to_triqs, read_vasp_crpa_vq_to_triqs"]}
{"id": "C97", "title": "Wannier90 text parsers return the printed numbers", "statement": "parse_lattice_vectors_from_wannier90_wout returns the three printed lattice vectors in Angstrom for files in Angstrom and in Bohr, and refuses a file without the header. parse_reciprocal_lattice_vectors_from_wannier90_wout returns the three printed reciprocal vectors and refuses a file without the header. parse_orbital_positions_from_wannier90_wout returns, for every Wannier function, the coordinates v with sum_i v_i a_i equal to the printed centre, for the lattice vectors a_i returned by the lattice parser. parse_band_structure_from_wannier90_band_dat returns energy and path coordinate of point j of band b as printed in row j of block b.", "quantifier": "For all files with the Wannier90 layout: any number of orbitals, bands and points, any numbers, any text before and after the tables.", "why_tests_cant": "Correctness depends on the number of characters of each printed number, on signs, on the number of rows and on the unit of the file; a test reads one file.", "anchors": ["python/triqs_tprf/wannier90.py: parse_lattice_vectors_from_wannier90_wout, parse_reciprocal_lattice_vectors_from_wannier90_wout, parse_orbital_positions_from_wannier90_wout, parse_band_structure_from_wannier90_band_dat"]}
{"id": "C98", "title": "The solver for one frequency returns the slice of the full solver", "statement": "solve_lattice_bse_at_specific_w(g_wk, gamma_wnn, nw_index) returns the susceptibility and the bubble that solve_lattice_bse(g_wk, gamma_wnn) returns at that bosonic frequency; frequencies outside of the mesh of the vertex and vertices of another temperature are refused.", "quantifier": "every Green's function, every lattice, every vertex, all numbers of bosonic and fermionic frequencies, every frequency index, every number of processes", "why_tests_cant": "the two drivers share few lines: the vertex, the two bubbles and the fake meshes are built differently; a test compares them for one model, at one set of frequencies and within a tolerance which hides the change of the quadrature at zero frequency", "anchors": ["python/triqs_tprf/bse.py: solve_lattice_bse, solve_lattice_bse_at_specific_w, get_chi0_wnk, get_chi0_nk_at_specific_w", "python/triqs_tprf/lattice_utils.py: imtime_bubble_chi0_wk, add_fake_bosonic_mesh", "c++/triqs_tprf/lattice/chi_imtime.cpp: chi0_w0r_from_grt_PH, chi0_wr_from_grt_PH"]}
{"id": "C99", "title": "The high frequency correction of the Bethe-Salpeter solver vanishes for large frequency windows", "statement": "solve_lattice_bse returns the solution of the Bethe-Salpeter equation on the frequencies of the vertex plus a correction for the fermionic frequencies outside of it; when the fermionic window grows to all frequencies the correction tends to zero, at every bosonic frequency, momentum and for all orbital components, so that results converge to the solution of the equation.", "quantifier": "all Green's functions that are finite sums of poles, every lattice, every family of vertices, every bosonic frequency and momentum, all orbital components, every number of processes", "why_tests_cant": "a limit of infinitely many frequencies; tests run with one window, one orbital and mostly the static component, for which the error is absent", "anchors": ["python/triqs_tprf/bse.py: solve_lattice_bse, get_chi0_wnk", "c++/triqs_tprf/lattice/chi_imfreq.cpp: chi0r_from_gr_PH, chi0q_sum_nu, chiq_sum_nu_from_chi0q_and_gamma_PH", "c++/triqs_tprf/lattice/chi_imtime.cpp: chi0_tr_from_grt_PH"]}
{"id": "C100", "title": "The transform from imaginary time to Matsubara frequencies converges when its moments are fitted", "statement": "fourier_tr_to_wr and the other transforms from imaginary time without given moments estimate the second and third high frequency moment from the nine values at either end of the time mesh. For a nine times differentiable function the fitted moments tend to the values given by its first and second derivatives at the two ends of the time interval (up to the ten digits of the stored matrix), and the transform at every Matsubara frequency tends to the Fourier integral over imaginary time, with an error that decreases at least with the third power of the number of times, up to the rounding of the stored matrix (ten digits), which enters with the second power. Every time mesh that passes the length check of the transform has enough points for the fit.", "quantifier": "for both statistics, every inverse temperature, every nine times continuously differentiable function, every frequency and every length of the time mesh", "why_tests_cant": "A test compares one smooth function on one mesh with a tolerance; it cannot show that the decimal numbers of the stored inverse matrix, the signs at the two ends and the subtraction of the tail fit together so that the error vanishes for every function and frequency, and short meshes are never used in the tests.", "anchors": ["c++/triqs_tprf/fourier/fourier_matsubara.cpp: fit_derivatives, _fourier_plan, _fourier_impl", "c++/triqs_tprf/lattice/gf.cpp: fourier_tr_to_wr"]}
{"id": "C101", "title": "Static self-energy from the density matrix", "statement": "For a Hamiltonian H made of a constant, quadratic and quartic (c^+ c^+ c c) terms over the given operators, let h = quadratic_matrix_from_operator(H) and U = get_rpa_tensor(H). In every state, thermal or not, interacting or not, the second moment <{[c_a, H], c^+_b}> equals h_ab plus the mean field einsum('abcd,cd->ba', -U, rho) that HartreeSolver/HartreeFockSolver builds from the density matrix rho_ab = <c^+_b c_a>. For a thermal state the imaginary time Green's function G obeys G(0) + G(beta) = -1 and G'(0) + G'(beta) = h + meanField(-G(beta)). So the Hartree-Fock mean field is the exact static part of the self-energy at the given density matrix.", "quantifier": "for every number of orbitals, every such Hamiltonian (hermitian for the thermal statement), every state, every representation of the anticommutation relations and every temperature", "why_tests_cant": "A test evaluates one Hamiltonian in one state; sign and index order errors in the tensor cancel for symmetric interactions and symmetric densities.", "anchors": ["python/triqs_tprf/rpa_tensor.py: get_rpa_tensor", "python/triqs_tprf/OperatorUtils.py: quadratic_matrix_from_operator", "python/triqs_tprf/hf_solver.py: HartreeFockSolver.update_mean_field", "python/triqs_tprf/fitdlr.py: constrained_lstsq_dlr_from_tau"]}
{"id": "C102", "title": "The constraints of the DLR fit", "statement": "constrained_lstsq_dlr_from_tau and fitdlr impose what they document. Whatever the minimiser returns, parameters that meet the discontinuity constraints give a Green's function with G(0) + G(beta) = -1 in all components and norm_res = 0; parameters that meet the density constraint give G'(0) + G'(beta) = h + meanField(-G(beta)) in all components. Conversely, the exact Green's function of the Hamiltonian, when the representation contains it, meets all constraints and can be returned. The positivity option asks for a positive spectral function. Both hold for the TRIQS and the pydlr driver.", "quantifier": "for every inverse temperature, every set of DLR frequencies, every number of orbitals, every hermitian Hamiltonian and every parameter vector", "why_tests_cant": "A test fits one noisy Green's function and compares within the noise; a constraint on the wrong component, or one that excludes the exact answer, changes the fit by less than that.", "anchors": ["python/triqs_tprf/fitdlr.py: fitdlr, triqs_driver, pydlr_driver, constrained_lstsq_dlr_from_tau, Symmetrizer"]}
{"id": "C103", "title": "The modes of the Hartree-Fock response decide the stability of the mean field solution", "statement": "HartreeFockResponse.mode_decomposition returns 1/(1 - x) for the eigenvalues x of chi0 U in increasing order of x. For the interaction tensor of a self-adjoint operator and a real mean field Hamiltonian the eigenvalues are real in the limit of a vanishing finite difference step, so taking the real part drops nothing. At a self-consistent Hartree-Fock solution the variational grand potential <H - mu N> - T S of Gaussian states is stationary, and all returned modes are finite and positive exactly when its second derivative is positive along every hermitian trial field, i.e. a negative or infinite mode is a genuine instability. The product of the modes is 1/det(1 - chi0 U), a mode is infinite exactly when the response diverges, and a field along an eigenvector is enhanced by exactly one of the modes.", "quantifier": "for all numbers of orbitals and momenta, inverse temperatures, chemical potentials, dispersions, self-consistent density matrices, interactions with the symmetries of a self-adjoint operator, diagonalisation routines and orderings that meet their specification", "why_tests_cant": "The equivalence quantifies over all hermitian trial fields and uses the second derivative of a thermodynamic potential that the code never computes; a test compares a few modes of one lattice with known numbers.", "anchors": ["python/triqs_tprf/hf_response.py: HartreeFockResponse.mode_decomposition", "python/triqs_tprf/hf_response.py: HartreeFockResponse.__init__", "python/triqs_tprf/hf_response.py: BaseResponse._compute_chi0_abcd"]}
{"id": "C104", "title": "Results do not depend on the choice of the orbital basis", "statement": "For a unitary change of the orbitals c' = S c, applied to the input of a routine (dispersion, self energy, Green's function, interaction, initial density matrix, gap function), the output is the original output with S on every annihilation index and its complex conjugate on every creation index; scalars (energies, chemical potential, number of electrons) are unchanged. This holds for lattice Green's functions, all bubbles, get_rpa_tensor after operator_single_particle_transform, solve_rpa_PH with that tensor, the Bethe-Salpeter and dual equations, screened interactions, GW self energies and the GW solver, Hartree-Fock, the Lindhard function and the Eliashberg products and vertices.", "quantifier": "for all unitary matrices, numbers of orbitals, lattices, frequencies, temperatures and interactions", "why_tests_cant": "A test compares numbers for one system in one, usually real, basis; two conventions for one tensor that agree for real orbitals pass every such test.", "anchors": ["python/triqs_tprf/rpa_tensor.py: get_rpa_tensor", "python/triqs_tprf/OperatorUtils.py: operator_single_particle_transform", "c++/triqs_tprf/lattice/rpa.cpp: solve_rpa_PH", "c++/triqs_tprf/lattice/gw.cpp: gw_dynamic_sigma, fock_sigma, hartree_sigma", "python/triqs_tprf/gw_solver.py: GWSolver", "python/triqs_tprf/hf_solver.py: HartreeFockSolver", "c++/triqs_tprf/lattice/eliashberg.cpp: eliashberg_product, construct_phi_wk", "python/triqs_tprf/bse.py: solve_lattice_bse", "c++/triqs_tprf/lattice/lindhard_chi00.cpp: lindhard_chi00"]}
{"id": "C105", "title": "The lattice Green's function is causal and normalised", "statement": "With a hermitian dispersion, a real chemical potential and a self energy whose anti-hermitian part damps (i (S - S^dagger) positive semidefinite; in particular no self energy), the lattice Green's functions returned by lattice_dyson_g0_wk, lattice_dyson_g0_fk, lattice_dyson_g_wk, lattice_dyson_g_fk and the local ones lattice_dyson_g_w, lattice_dyson_g_f are causal at every frequency z in the upper half plane (positive Matsubara frequencies, or real frequencies with positive delta): the inversion never fails, i (G - G^dagger) is positive definite (so the diagonal spectral functions are positive), no element exceeds 1/Im z, and z G approaches the unit matrix with an explicit error bound |e + S - mu| / Im z. The spectral function -(G - G^dagger)/(2 pi i) of the free Green's function with any broadening integrates over the real axis to the unit matrix.", "quantifier": "for all numbers of orbitals, momenta and frequencies, all hermitian dispersions, all damping self energies (local or momentum dependent), all chemical potentials, all broadenings and all numbers of MPI ranks", "why_tests_cant": "Positivity for every dispersion and every self energy is a statement about infinitely many matrices, invertibility at every frequency cannot be sampled, and the sum rule integrates over the whole real axis.", "anchors": ["c++/triqs_tprf/lattice/gf.cpp: lattice_dyson_g0_Xk, lattice_dyson_g0_fk, lattice_dyson_g_Xk, lattice_dyson_g_X", "c++/triqs_tprf/lattice/gf.hpp: lattice_dyson_g0_wk, lattice_dyson_g0_fk, lattice_dyson_g_wk, lattice_dyson_g_fk, lattice_dyson_g_w, lattice_dyson_g_f"]}
{"id": "C106", "title": "The static response is positive and the RPA is stable exactly up to the Stoner criterion", "statement": "The static particle-hole susceptibility of a stable system is a positive form on pairs of orbitals (rows (a,b), columns (d,c) of chi_abcd). The static Lindhard susceptibility lindhard_chi00 at zero frequency is positive definite at every momentum; the imaginary time bubble chi0_tr_from_grt_PH is positive semidefinite at every time and momentum and so is the static bubble chi0_w0r_from_grt_PH, for every Green's function with positive spectral weight, and no response at a bosonic Matsubara frequency exceeds the static one. The tensor that get_rpa_tensor reads from a hermitian Hamiltonian is a hermitian coupling of pairs. Then all eigenvalues of chi0 U are real, solve_rpa_PH returns a finite positive response if all of them are below one (and a positive definite one only then), scaling the interaction up there is one critical strength where the response diverges and beyond which it is not positive any more, and the response grows with the coupling. For the one band Hubbard model this is the Stoner criterion |U| chi0(q) < 1. The static bubble summed over fermionic frequencies (chi0q_sum_nu) should be positive as well.", "quantifier": "for all numbers of orbitals and momenta, all hermitian dispersions, all Green's functions with positive spectral weight, all hermitian interactions, all temperatures and all numbers of MPI ranks", "why_tests_cant": "Positivity of a form is a statement about all vectors and all dispersions, and the location of the first divergence needs the eigenvalues for a continuum of interaction strengths.", "anchors": ["c++/triqs_tprf/lattice/rpa.cpp: solve_rpa_PH", "c++/triqs_tprf/lattice/lindhard_chi00.cpp: lindhard_chi00", "c++/triqs_tprf/lattice/chi_imtime.cpp: chi0_tr_from_grt_PH, chi0_w0r_from_grt_PH", "c++/triqs_tprf/lattice/chi_imfreq.cpp: chi0q_sum_nu", "python/triqs_tprf/rpa_tensor.py: get_rpa_tensor"]}
{"id": "C107", "title": "The Eliashberg solver returns the same on any number of MPI ranks", "statement": "Running solve_eliashberg on several MPI ranks gives, on every rank, the eigenvalues and gaps a serial run gives, without deadlock, for every eigenvalue solver that touches the operator only through matvec. The start vector drawn by semi_random_initial_delta is real, keeps the mean of |Re G| on the first and last nr_factor/2 of the frequencies, is damped (never enlarged) in between, is reproducible when a seed is given or when the caller seeds numpy.random, and is never the zero vector.", "quantifier": "for all numbers of ranks, meshes, orbitals, vertices, Green's functions, symmetrisation functions and deterministic solvers (any function of the start vector and the answers of matvec); for all random generators", "why_tests_cant": "Tests run on one rank, or on few ranks with a given start vector, and compare with a tolerance. That every Krylov solver runs in lock step, or that drawing the start vector separately on each rank breaks this, is a statement about all interleavings of the ranks and all random numbers.", "anchors": ["python/triqs_tprf/eliashberg.py:solve_eliashberg", "python/triqs_tprf/eliashberg.py:semi_random_initial_delta", "python/triqs_tprf/eliashberg.py:implicitly_restarted_arnoldi_method", "python/triqs_tprf/eliashberg.py:power_method_LR", "c++/triqs_tprf/lattice/eliashberg.cpp:eliashberg_g_delta_g_product", "c++/triqs_tprf/lattice/eliashberg.cpp:eliashberg_product", "c++/triqs_tprf/lattice/eliashberg.cpp:eliashberg_product_fft"]}
{"id": "C108", "title": "A compressed archive gives back what was written under the same name", "statement": "read_TarGZ_HDFArchive(f) after write_TarGZ_HDFArchive(f, **kw) returns the written dictionary, whatever was on the disk before, and no file other than the archive is changed. (Violated: everything after the first dot of the name is cut off, so names with a dot in the stem or a relative path go to another file; an existing stem.h5 is replaced and removed.)", "quantifier": "for all file names, all previous contents of the disk, all data", "why_tests_cant": "Tests use one plain file name in an empty directory. Which names work, and which other files are touched, is a statement about all names and all disks.", "anchors": ["python/triqs_tprf/utilities.py:write_TarGZ_HDFArchive", "python/triqs_tprf/utilities.py:read_TarGZ_HDFArchive"]}
{"id": "C109", "title": "Parameter collections and solvers survive archives and copies", "statement": "A ParameterCollection written to an HDF5 archive is read back equal, with plain Python booleans, nested collections, lists and dictionaries; convert_keys_from_string_to_python restores dictionary keys that are not strings; a GWSolver read back has all stored attributes; a ParameterCollections object can be copied with copy.copy, copy.deepcopy and pickle. (Violated: numpy booleans inside lists and dictionaries stay, a parameter named items makes the collection unreadable, and a ParameterCollections object can not be copied or pickled.)", "quantifier": "for all nestings of values, all parameter names, all Python recursion limits, all attributes computed by the constructor", "why_tests_cant": "The round trip has to hold for arbitrarily nested values and all names; tests store one flat collection. The copy fails for every object, but no test copies one.", "anchors": ["python/triqs_tprf/ParameterCollection.py:_clean_bools", "python/triqs_tprf/ParameterCollection.py:__factory_from_dict__", "python/triqs_tprf/ParameterCollection.py:convert_keys_from_string_to_python", "python/triqs_tprf/ParameterCollection.py:__getattr__", "python/triqs_tprf/gw_solver.py:__reduce_to_dict__", "python/triqs_tprf/gw_solver.py:__factory_from_dict__"]}
{"id": "C110", "title": "Transforms on DLR meshes", "statement": "On DLR meshes fourier_wr_to_tr and fourier_tr_to_wr are inverse to each other for all data and any number of MPI ranks; they are exact, and dlr_on_imtime, dlr_on_imfreq and rho_k_from_g_wk give exact values on any mesh, for every function that is a sum of poles of the mesh; for other functions the error is bounded by how well a sum of poles reproduces the function at the nodes. The linear systems behind the fits have exactly one solution whenever poles and nodes are pairwise different.", "quantifier": "for all DLR meshes with pairwise different poles and nodes, all data, both statistics, all lattices, all numbers of MPI ranks", "why_tests_cant": "Tests transform one Green's function on one mesh generated by the library. Invertibility for all meshes, and exactness for all functions in the span, are statements about infinitely many meshes and functions.", "anchors": ["c++/triqs_tprf/lattice/fourier.hpp:fourier_Dwr_to_Dtr_general_target", "c++/triqs_tprf/lattice/fourier.hpp:fourier_Dtr_to_Dwr_general_target", "c++/triqs_tprf/lattice/lattice_utility.cpp:dlr_on_imtime", "c++/triqs_tprf/lattice/lattice_utility.cpp:dlr_on_imfreq", "c++/triqs_tprf/lattice/gw.cpp:rho_k_from_g_wk"]}
{"id": "C111", "title": "The Eliashberg product on DLR meshes agrees with the one on Matsubara meshes", "statement": "At the frequency nodes eliashberg_g_delta_g_product on a DLR mesh gives the product G(k) G(-k)* Delta that the routine for Matsubara meshes gives there; it is linear in the gap and independent of the number of MPI ranks; eliashberg_product_fft contracts a constant vertex with the exact equal-time value of the pair function at every frequency and multiplies a dynamic vertex at the time nodes. (The first part is violated when the gap and the product of Green's functions share a pole: the double pole is replaced by an interpolation.)", "quantifier": "for all DLR meshes with pairwise different poles and nodes, all Green's functions, gaps and vertices, all lattices, orbital numbers and numbers of MPI ranks", "why_tests_cant": "Tests compare the two routines for one model to a tolerance. For which inputs the results agree exactly, and what the difference is otherwise, is a statement about all inputs.", "anchors": ["c++/triqs_tprf/lattice/eliashberg.cpp:eliashberg_g_delta_g_product", "c++/triqs_tprf/lattice/eliashberg.cpp:eliashberg_constant_gamma_f_product", "c++/triqs_tprf/lattice/eliashberg.cpp:eliashberg_product_fft"]}
{"id": "C112", "title": "The eigenvalues of the linearised Eliashberg equation are real", "statement": "solve_eliashberg and implicitly_restarted_arnoldi_method report real eigenvalues of the map applied by eliashberg_product. For a hermitian pairing vertex, Gamma(-w,-q)_abcd = conj Gamma(w,q)_dcba, the eigenvalues of that map are real numbers, so the `.real` in the code discards nothing and every returned pair (lambda, delta) satisfies product(delta) = lambda delta; with a purely repulsive (positive) kernel no eigenvalue is positive; when eigenvalues are complex they come in conjugate pairs.", "quantifier": "for every vertex and Green's function with the stated symmetry, every lattice, orbital count, window size, number of ranks, eigenvalue and gap function", "why_tests_cant": "A test computes the leading eigenvalues of one or two models, in which they are real; whether the map has a real spectrum in general is a statement about all Green's functions, and complex eigenvalues first appear in models with several bands on both sides of the Fermi level.", "anchors": ["python/triqs_tprf/eliashberg.py:implicitly_restarted_arnoldi_method", "python/triqs_tprf/eliashberg.py:solve_eliashberg", "c++/triqs_tprf/lattice/eliashberg.cpp:eliashberg_product"]}
{"id": "C113", "title": "Hermitian symmetry is carried through every solver", "statement": "Correlation functions of a hermitian Hamiltonian obey G(-iv)_ab = conj G(iv)_ba and chi(-iw)_abcd = conj chi(iw)_dcba. Given input with this symmetry, every routine of the library returns output with it: the bubble by all routes (frequency sum, imaginary time, Lindhard, real time), solve_rpa_PH (also the exchange symmetry chi(-w,-q)_abcd = chi(w,q)_cdab, and real static diagonal response), the dynamically screened interaction for static and dynamic bare interactions, the Bethe-Salpeter inverse, ladder, frequency sum, lattice BSE, local vertex and dual BSE, the Hartree, Fock and dynamic GW self energies, and the complete GW self-consistency, whose density matrices are hermitian and whose reported particle number (the real part of a trace) drops nothing. get_rpa_tensor of a self adjoint operator supplies an interaction with both symmetries. The transforms between imaginary time and Matsubara frequencies commute with the conjugation, including the fitted and the given moments.", "quantifier": "for all orbital numbers, lattices, meshes closed under reversal of the frequency, numbers of ranks, self adjoint interaction operators, hermitian dispersions, numbers of GW iterations and root finders", "why_tests_cant": "The symmetry ties together the index orders of all routines; tests use one orbital or real inversion symmetric models, where a transposed index pair or a lost conjugation is invisible.", "anchors": ["c++/triqs_tprf/lattice/chi_imfreq.cpp: chi0q_from_g_wk_PH, chi0q_sum_nu", "c++/triqs_tprf/lattice/chi_imtime.cpp: chi0_tr_from_grt_PH", "c++/triqs_tprf/lattice/lindhard_chi00.cpp: lindhard_chi00", "c++/triqs_tprf/lattice/rpa.cpp: solve_rpa_PH", "c++/triqs_tprf/lattice/dynamical_screened_interaction.cpp: dynamical_screened_interaction_W", "c++/triqs_tprf/linalg.cpp: inverse_PH, product_PH", "python/triqs_tprf/bse.py: solve_lattice_bse", "python/triqs_tprf/dbse.py", "c++/triqs_tprf/lattice/gw.cpp: gw_sigma, fock_sigma, hartree_sigma", "python/triqs_tprf/gw_solver.py: GWSolver.solve_iter", "python/triqs_tprf/rpa_tensor.py: get_rpa_tensor", "c++/triqs_tprf/fourier/fourier_matsubara.cpp"]}
{"id": "C114", "title": "The Hartree solver solves the Hartree approximation", "statement": "For a density-density interaction sum V_ac n_a n_c the mean field of HartreeSolver is the classical shift sum_c V_ac n_c of level a, for any occupations; when the bands do not hybridise the orbitals and the interaction is a self adjoint density-density operator, HartreeSolver.solve_iter and HartreeFockSolver.solve_iter perform the same steps, refuse the same input and end in the same state (density, mean field, chemical potential, energies). The interaction energy HartreeSolver reports is the one of the occupations it iterates. (Violated: E_int, and with it E_tot and Omega, is computed from the full density matrix and contains its exchange energy; two orbitals with hopping and n_0 n_1 at half filling.)", "quantifier": "for all orbital lists, density-density operators, lattices, temperatures, fillings, start values, mixings, tolerances, numbers of iterations", "why_tests_cant": "Tests of HartreeSolver use models with a diagonal density matrix, where the two solvers and both energies agree.", "anchors": ["python/triqs_tprf/hf_solver.py: HartreeSolver.mat2vec, HartreeSolver.vec2mat, HartreeFockSolver.update_mean_field, HartreeFockSolver.update_interaction_energy, HartreeFockSolver.solve_iter", "python/triqs_tprf/rpa_tensor.py: get_rpa_tensor"]}
{"id": "C115", "title": "Imaginary time routes converge to the exact correlation functions when the meshes are refined", "statement": "The routes w -> tau -> product -> w give the exact bubbles and self energies in the limit of large meshes, at a known rate. Precisely: if the data of a Green's function on the Matsubara mesh are the Fourier coefficients of a function g that is smooth on [0, beta], (1) the high frequency moments are the jumps of g and its derivatives; (2) the transform to imaginary time is within C (1/N^2 + N |error of m1| + |error of m2| + |error of m3|) of g at every time including beta; (3) the transform back is stable: data within delta of a smooth function give coefficients within C (delta + 1/L^2); (4) hence products in imaginary time, in particular imtime_bubble_chi0_wk for one and for many bosonic frequencies, with and without save_memory, and the dynamic GW self energy, are within C/N^2 of the exact transforms; for a Green's function made of poles the limit is the exact bubble, and for free electrons it is what lindhard_chi00 returns. C does not depend on the meshes.", "quantifier": "for all temperatures, statistics, lattices, orbital numbers, functions with nine continuous derivatives, mesh sizes with 2N <= L, external frequencies, momenta, numbers of ranks, tail fits with moments accurate to order 1/N^2", "why_tests_cant": "A test compares one mesh with a tolerance chosen to pass; that the error goes to zero, how fast, and how errors in the fitted moments enter needs all mesh sizes.", "anchors": ["c++/triqs_tprf/fourier/fourier_matsubara.cpp: _fourier_plan, _fourier_impl, fit_derivatives", "c++/triqs_tprf/lattice/fourier.hpp: fourier_wr_to_tr_general_target, fourier_tr_to_wr_general_target", "python/triqs_tprf/lattice_utils.py: imtime_bubble_chi0_wk", "c++/triqs_tprf/lattice/chi_imtime.cpp: chi0_tr_from_grt_PH, chi0_w0r_from_grt_PH", "c++/triqs_tprf/lattice/gw.cpp: gw_dynamic_sigma", "python/triqs_tprf/gw_solver.py: GWSolver.gw_dynamic_sigma", "c++/triqs_tprf/lattice/lindhard_chi00.cpp: lindhard_chi00"]}
{"id": "C116", "title": "Conserved charges do not respond, and the static response of the density is the compressibility", "statement": "For a one-body operator X that commutes with the dispersion at every momentum (always for the particle number): at zero momentum transfer and nonzero frequency the contraction of the particle-hole bubble with X on either side vanishes; at zero frequency it is the derivative of the density matrix of the mean field solver with respect to the chemical potential, times X. This holds exactly for lindhard_chi00 and up to C/N^2 for imtime_bubble_chi0_wk. It survives solve_rpa_PH with any interaction, and it fixes dynamical_screened_interaction_W: an interaction between conserved charges is not screened at zero momentum and nonzero frequency; the interaction v n n of the total density with itself becomes v / (1 - v sum_ac Pi_aacc), in the static limit v / (1 + v dn/dmu).", "quantifier": "for all hermitian dispersions, lattices, orbital numbers, temperatures, chemical potentials, frequencies, interactions, diagonalisation routines, numbers of ranks; X any operator commuting with the dispersion", "why_tests_cant": "Index orders and factors of the four-index bubble can be wrong in ways that a test on one orbital, or with a real dispersion, cannot see; the sum rules must hold for every dispersion and temperature.", "anchors": ["c++/triqs_tprf/lattice/lindhard_chi00.cpp: lindhard_chi00", "python/triqs_tprf/lattice_utils.py: imtime_bubble_chi0_wk", "c++/triqs_tprf/lattice/rpa.cpp: solve_rpa_PH", "c++/triqs_tprf/lattice/dynamical_screened_interaction.cpp: dynamical_screened_interaction_W", "python/triqs_tprf/hf_solver.py: update_density_matrix"]}
{"id": "C117", "title": "Symmetries of the lattice are kept by every solver", "statement": "Let an operation map the momenta k to phi(k) and the lattice vectors so that phases are kept, and the orbitals with a unitary matrix S. If the dispersion satisfies e(phi k) = S e(k) S+ and the interactions are symmetric in the same way, then so are: the Green's functions of lattice_dyson_g0_wk and lattice_dyson_g_wk and their Fourier transforms, the particle-hole bubbles of every route, the RPA susceptibility, the screened interaction, the lattice susceptibility of the Bethe-Salpeter solvers, all quantities of every pass of GWSolver.solve_iter and its final state, all density matrices and mean fields of HartreeFockSolver and HartreeSolver (solve_iter). The Eliashberg product commutes with the operation on gap functions, so a start that belongs to a one-dimensional representation of the symmetry group stays in it and symmetry images of gap functions have the same eigenvalue.", "quantifier": "for all lattices in any dimension, operations, unitary matrices S, dispersions, interactions, self energies, meshes, numbers of ranks, flags, tolerances and numbers of iterations", "why_tests_cant": "Tests use one-band square lattices; a wrong sign of a momentum in one of many shifts, or a wrong orbital index in one contraction, keeps inversion or the trivial orbital representation and is seen only with other operations and several orbitals.", "anchors": ["c++/triqs_tprf/lattice/gf.cpp: lattice_dyson_g_wk", "c++/triqs_tprf/lattice/chi_imtime.cpp: chi0_tr_from_grt_PH", "c++/triqs_tprf/lattice/lindhard_chi00.cpp: lindhard_chi00", "c++/triqs_tprf/lattice/rpa.cpp: solve_rpa_PH", "c++/triqs_tprf/lattice/eliashberg.cpp: eliashberg_product", "python/triqs_tprf/gw_solver.py: GWSolver.solve_iter", "python/triqs_tprf/hf_solver.py: HartreeFockSolver.solve_iter", "python/triqs_tprf/eliashberg.py: solve_eliashberg"]}
{"id": "C118", "title": "No function reads a name that does not exist", "statement": "Importing a Python module of the package and calling any of its functions afterwards never raises NameError or UnboundLocalError, whatever the arguments are, whichever branches are taken, however often loops run and wherever other exceptions occur. Function objects that are returned or stored also find all names of the functions they were created in.", "quantifier": "all Python modules of the package, all functions, methods, nested functions and class bodies in them, all runs (all branches, all numbers of loop iterations, other exceptions at any point), all truth values of parameters", "why_tests_cant": "Python looks names up only when the line is run. A test finds a missing name only on the lines it runs; debugging branches, rarely used functions and loops without iterations are not run by the tests.", "anchors": ["python/triqs_tprf/*.py", "python/triqs_tprf/lattice_utils.py: bubble_setup, chi0_w0k_tau_bubble, strip_sigma", "python/triqs_tprf/fitdlr.py: triqs_driver.initial_guess_from_tau_interp1d", "python/triqs_tprf/gw_solver.py: GWSolver.solve_iter", "python/triqs_tprf/wannier90.py"]}
{"id": "C119", "title": "Calls and imports between the modules fit", "statement": "Every call of a function of the package by its name, and every call of a method on self, inside the package passes arguments that the called function accepts: no unknown keyword, no parameter given twice or missing, whatever the values are; for methods this holds for all derived classes. Every name imported from another module of the package is defined there (or is exported by the compiled module), and the modules do not import each other in circles.", "quantifier": "all 349 calls of this kind without * and ** arguments, all argument values, all 116 imports, all modules", "why_tests_cant": "Python checks arguments when the call is run and imports inside functions when the function is run; a renamed keyword or function in a branch that no test runs stays unnoticed.", "anchors": ["python/triqs_tprf/*.py", "python/triqs_tprf/*_desc.py"]}
{"id": "C120", "title": "Bubbles and notation changes only need frequencies that are given", "statement": "get_chi0_wnk, get_chi0_nk_at_specific_w, chi0_from_gg2_PH/PP, from_3nu_PH/PH_bar/PP, block_3nu_AABB_to_tensor_valued and the bubbles inside the lattice Bethe-Salpeter solvers return the documented formula at every point of their result for every Green's function given on a finite Matsubara mesh, or refuse mesh sizes for which the mesh does not contain the frequencies nu + omega, omega - nu or nu1 - nu2 + nu3 that are needed. With default arguments they are right.", "quantifier": "all numbers of fermionic and bosonic frequencies, all lattices and orbitals, all Green's functions, every rule by which values outside a mesh might be made up from those inside", "why_tests_cant": "Tests use one set of sizes with a generous window; whether the values depend on what is substituted outside the mesh can not be seen from one result, and reads outside the memory usually return something.", "anchors": ["python/triqs_tprf/bse.py: get_chi0_wnk, get_chi0_nk_at_specific_w, solve_lattice_bse", "python/triqs_tprf/dbse.py: solve_lattice_dbse", "c++/triqs_tprf/lattice/chi_imfreq.cpp: chi0r_from_gr_PH, chi0_nr_from_gr_PH_at_specific_w, chi0_n_from_g_wk_PH, chi0_n_from_e_k_sigma_w_PH", "c++/triqs_tprf/chi_from_gg2.cpp: chi0_from_gg2", "c++/triqs_tprf/freq_conv.cpp: from_3nu, block_3nu_AABB_to_tensor_valued"]}
{"id": "C121", "title": "The mean-field grand potential is an upper bound of the exact one", "statement": "For HartreeFockSolver with a self-adjoint normal-ordered two-body interaction: the non-interacting free energy it computes is the exact grand potential per cell of free electrons on the lattice; its density matrix is that of the thermal state of the mean-field Hamiltonian on the many-electron Fock space, a state in which Wick's theorem holds; the reported Omega of a self-consistent solution is an upper bound of the exact grand potential per cell of the interacting lattice Hamiltonian (Gibbs-Bogoliubov inequality), and after solve_iter the bound holds up to the average of the last change of the mean field; along every differentiable family of self-consistent solutions Omega changes by the average of the change of the bands minus N_tot times the change of the chemical potential; and the reported energies, density and Omega obey Omega = E_tot - mu N_tot - T S with the (non-negative) entropy S of the mean-field bands.", "quantifier": "all finite lattices, band structures, interactions, temperatures and chemical potentials, all self-consistent solutions and all runs of the forward iteration, all representations of the fermion operators by matrices of the dimension of the Fock space", "why_tests_cant": "The exact grand potential of an interacting lattice needs a Hilbert space of dimension 2^(orbitals x cells); the tests only look at mean-field numbers of a few models, so neither the inequality nor the thermodynamic relation between the reported numbers can be seen in them.", "anchors": ["python/triqs_tprf/hf_solver.py: HartreeFockSolver.update_total_energy, update_non_int_free_energy, update_interaction_energy, solve_iter", "python/triqs_tprf/hf_response.py: HartreeFockResponse"]}
{"id": "C122", "title": "A mean-field solver uses the whole interaction it accepts", "statement": "HartreeFockSolver/HartreeSolver accept an interaction H_int exactly if it is built from the operators of gf_struct, and then represent all of it: every accepted H_int equals the operator 1/4 sum U_abcd c+_b c+_d c_a c_c of the tensor U used in the mean field. fundamental_operators_from_gf_struct lists every orbital of every block exactly once, is_operator_composed_of_only_fundamental_operators tells whether all operators of a Hamiltonian belong to the given list, and get_operator_index_map maps a list of fundamental operators to their indices and refuses anything else, so that operators passed as fundamental stand for the modes used by get_quadratic_operator.", "quantifier": "for all gf_struct, all operators (any number of terms and operators per term, any coefficients), all lists of fundamental operators with any prefactors", "why_tests_cant": "Tests use one or two Hubbard or Kanamori interactions without constant, quadratic or six-fermion terms and always c(bn, idx) with prefactor one; which Hamiltonians are silently truncated is a statement over all operators.", "anchors": ["python/triqs_tprf/OperatorUtils.py:fundamental_operators_from_gf_struct", "python/triqs_tprf/OperatorUtils.py:op_is_fundamental", "python/triqs_tprf/OperatorUtils.py:op_serialize_fundamental", "python/triqs_tprf/OperatorUtils.py:get_operator_index_map", "python/triqs_tprf/OperatorUtils.py:get_quadratic_operator", "python/triqs_tprf/OperatorUtils.py:is_operator_composed_of_only_fundamental_operators", "python/triqs_tprf/hf_solver.py:HartreeFockSolver.__init__"]}
{"id": "C123", "title": "The Hubbard atom functions are the exact correlation functions of the atom", "statement": "For the half-filled Hubbard atom H = U n_up n_dn - U/2 (n_up + n_dn) with U > 0 at inverse temperature beta > 0, single_particle_greens_function returns the Fourier transform of -<T c_s(tau) c^+_s(0)> for both spins, chi_ph_magnetic returns the magnetic susceptibility chi_up,up - chi_up,dn obtained by Fourier transforming <T c^+(tau1) c(tau2) c^+(tau3) c(0)> over the three times and subtracting the disconnected part, and the static value chi_m_static of analytic_hubbard_atom is 2 beta <S_z^2>.", "quantifier": "For all beta > 0, U > 0, all bosonic and all pairs of fermionic Matsubara frequencies, including the frequencies where the Kronecker symbols of the formula contribute.", "why_tests_cant": "The closed formulas are transcribed from a paper; a test compares them with each other or with one numerical solution at a single temperature. Only a computation of the triple time integral for all parameters shows that every term, including the rarely hit diagonal ones and the branch of the square root in B, is right at all temperatures.", "anchors": ["c++/triqs_tprf/hubbard_atom.cpp: single_particle_greens_function, chi_ph_magnetic", "python/triqs_tprf/analytic_hubbard_atom.py: analytic_hubbard_atom"]}
{"id": "C124", "title": "The mean-field drivers start from the given mean field and keep nothing of earlier calls", "statement": "solve_iter, solve_newton and solve_newton_mu start from the thermal density matrix of e_k + M0 (of e_k if M0 is None), at the chemical potential that gives N_target, or at the given mu; the first entry of the history returned by solve_iter is this density matrix. The result of a call does not depend on what the solver object was used for before. (Violated without mu0: a further search for the chemical potential is made in the bands left behind by the previous call, and its failure makes the call fail. mu0 itself never influences the result.)", "quantifier": "all dispersions, interactions, initial mean fields, targets, states of the solver before the call, eigensolvers and root finders", "why_tests_cant": "tests make one call on a new solver object; independence of all earlier calls and of the initial chemical potential is a statement about pairs of runs", "anchors": ["python/triqs_tprf/hf_solver.py:251-272 solve_setup", "python/triqs_tprf/hf_solver.py:275-346 solve_iter", "python/triqs_tprf/hf_solver.py:349-382 solve_newton", "python/triqs_tprf/hf_solver.py:385-422 solve_newton_mu"]}
{"id": "C125", "title": "The option realvalued of the DLR fit", "statement": "With realvalued=True constrained_lstsq_dlr_from_tau and fitdlr return a real symmetric Green's function and keep what the constraints promise: G(0) + G(beta) = -1 in all components although only half of the rows are imposed, G'(0) + G'(beta) = h + meanField(-G(beta)), and the fit to the real part of the data has the same minimisers as a fit to the data. Real symmetric exact Green's functions can be returned. A Hamiltonian that is not real is not silently replaced by another one.", "quantifier": "for every inverse temperature, every set of DLR frequencies, every number of orbitals, every quadratic term, interaction and input data, and every parameter vector", "why_tests_cant": "A test fits one real Green's function; which rows may be left out, and what happens to imaginary parts that are thrown away in a helper, is a statement about all inputs.", "anchors": ["python/triqs_tprf/fitdlr.py: constrained_lstsq_dlr_from_tau (realvalued, merge_re_im, split_re_im), fitdlr"]}
{"id": "C126", "title": "Results do not depend on the unit and on the zero of energy", "statement": "Choosing another unit of energy (all energies, interactions, self energies and frequencies times l, inverse temperature and times divided by l) or another zero of energy (dispersion and chemical potential plus c) describes the same physics. Densities, numbers of particles, leading eigenvalues, dimensionless vertices and numbers of iterations stay the same; Green's functions and susceptibilities are divided by l; self energies, interactions, energies and grand potentials are multiplied by l, and total energies get c times the number of particles. This holds for Dyson equation, bubbles, Lindhard function, Bethe-Salpeter and RPA routines, Eliashberg products, Hubbard atom, mean field solvers, GW solver and one shot GW.", "quantifier": "for every unit l > 0, every zero c, every dispersion, self energy, interaction, temperature, chemical potential, mesh and number of ranks, and for every tolerance where the code compares an energy with one", "why_tests_cant": "A test uses one unit. Tests in eV do not show that a fixed threshold such as 1e-10 or a tolerance for a Green's function means something else in meV, or that a default depends on the zero of energy.", "anchors": ["c++/triqs_tprf/lattice/gf.cpp: lattice_dyson_g0_wk, lattice_dyson_g_wk, lattice_dyson_g_w", "c++/triqs_tprf/lattice/lindhard_chi00.cpp: lindhard_chi00", "c++/triqs_tprf/lattice/chi_imfreq.cpp: chi0r_from_gr_PH, chi0q_from_g_wk_PH, chiq_sum_nu_from_chi0q_and_gamma_PH", "c++/triqs_tprf/lattice/chi_imtime.cpp: chi0_tr_from_grt_PH", "c++/triqs_tprf/lattice/rpa.cpp: solve_rpa_PH", "c++/triqs_tprf/lattice/dynamical_screened_interaction.cpp: dynamical_screened_interaction_W", "c++/triqs_tprf/lattice/gw.cpp: gw_dynamic_sigma", "c++/triqs_tprf/lattice/eliashberg.cpp: eliashberg_product", "c++/triqs_tprf/lattice/chi_retime.cpp: g0_Tk_les_gtr_from_e_k", "python/triqs_tprf/hf_solver.py: HartreeFockSolver, HartreeSolver", "python/triqs_tprf/gw_solver.py: GWSolver.__init__, solve_iter", "c++/triqs_tprf/hubbard_atom.cpp: single_particle_greens_function, chi_ph_magnetic", "python/triqs_tprf/analytic_hubbard_atom.py: analytic_hubbard_atom"]}
{"id": "C127", "title": "A system of uncoupled parts gives the results of its parts", "statement": "If the orbitals (or sites) can be divided into two sets with no matrix element of dispersion and self energy and no element of the interaction between them, then everything computed for the whole system is, on the orbitals of one set, what the same routine computes for that set alone with the same chemical potential, meshes and temperature. Green's functions, density matrices and self energies have no elements between the sets; bubbles and susceptibilities keep each of the two propagators within one set; screened interactions and pairing vertices have no element that mixes the sets. The Eliashberg products act on each set separately. Kinetic, interaction and total energy, grand potential and number of particles of the mean field solver are sums over the two sets, and the mean field solutions at a chemical potential are exactly the pairs of solutions of the two sets. A GW run without fixed density does in each pass what the runs of the sets do and stops when the slower of them stops.", "quantifier": "for every number of orbitals and every division into two sets, every dispersion, self energy, interaction and vertex without elements between them, every mesh, number of ranks, temperature and chemical potential for which the matrices that are inverted are regular, every eigensolver that meets its specification and every starting density matrix, also one with elements between the sets", "why_tests_cant": "Tests use one coupled model or a single orbital. A wrong order of the four indices, a wrong grouping into a matrix or a sum over the wrong pair shows only when parts are set side by side, and then for one choice of orbitals.", "anchors": ["c++/triqs_tprf/lattice/gf.cpp: lattice_dyson_g0_wk, lattice_dyson_g_wk, lattice_dyson_g_w", "c++/triqs_tprf/lattice/chi_imfreq.cpp: chi0r_from_gr_PH, chi0q_from_g_wk_PH, chiq_sum_nu_from_chi0q_and_gamma_PH", "c++/triqs_tprf/lattice/chi_imtime.cpp: chi0_tr_from_grt_PH", "c++/triqs_tprf/lattice/rpa.cpp: solve_rpa_PH", "c++/triqs_tprf/lattice/dynamical_screened_interaction.cpp: dynamical_screened_interaction_W", "c++/triqs_tprf/lattice/gw.cpp: gw_dynamic_sigma", "c++/triqs_tprf/lattice/eliashberg.cpp: eliashberg_product", "c++/triqs_tprf/lattice/lindhard_chi00.cpp: lindhard_chi00", "python/triqs_tprf/bse.py: solve_local_bse, solve_lattice_bse", "python/triqs_tprf/dbse.py: solve_lattice_dbse", "python/triqs_tprf/hf_solver.py: HartreeFockSolver", "python/triqs_tprf/gw_solver.py: GWSolver.solve_iter"]}
{"id": "C128", "title": "Results do not depend on the choice of the unit cell", "statement": "When the same lattice is described with another unit cell, with more orbitals per cell and fewer cells, every routine returns the same physical quantity in the other description. Green's functions, self energies and density matrices between two orbitals are those between the same two orbitals of the lattice; bare, RPA, screened and Bethe-Salpeter susceptibilities between two pairs of orbitals, each pair on one atom, are the same function of the lattice vector from the first pair to the second; local results are the same; energies, grand potential and particle number of the mean field solver are the same per site, and its solutions in the smaller cell are solutions in the larger. One pass of the GW solver and one product of the linearised Eliashberg equation take the same input in two descriptions to the same output in the two descriptions.", "quantifier": "for every lattice in any number of dimensions, every larger cell (given by where its orbitals sit on the old lattice), every number of orbitals, every dispersion, every local self energy and every interaction and vertex within an atom, every mesh, number of ranks, temperature and chemical potential for which the matrices that are inverted are regular", "why_tests_cant": "A test compares with one reference for one cell. The order of indices and the direction in which distances are counted cannot be seen in a cell with one site, because results there are symmetric, and in larger cells no reference is known; only the comparison of two descriptions shows a wrong direction.", "anchors": ["c++/triqs_tprf/lattice/gf.cpp: lattice_dyson_g0_wk, lattice_dyson_g_wk, lattice_dyson_g_w", "c++/triqs_tprf/lattice/chi_imfreq.cpp: chi0r_from_gr_PH, chi0q_from_g_wk_PH, chiq_sum_nu_from_chi0q_and_gamma_PH", "c++/triqs_tprf/lattice/chi_imtime.cpp: chi0_tr_from_grt_PH", "c++/triqs_tprf/lattice/rpa.cpp: solve_rpa_PH", "c++/triqs_tprf/lattice/dynamical_screened_interaction.cpp: dynamical_screened_interaction_W", "c++/triqs_tprf/lattice/gw.cpp: gw_dynamic_sigma", "c++/triqs_tprf/lattice/eliashberg.cpp: eliashberg_product", "c++/triqs_tprf/lattice/lindhard_chi00.cpp: lindhard_chi00", "python/triqs_tprf/eliashberg.py: construct_gamma_singlet_rpa, construct_gamma_triplet_rpa", "python/triqs_tprf/bse.py: solve_lattice_bse", "python/triqs_tprf/dbse.py: solve_lattice_dbse", "python/triqs_tprf/hf_solver.py: HartreeFockSolver", "python/triqs_tprf/gw_solver.py: GWSolver.solve_iter"]}
{"id": "C129", "title": "Particles and holes are treated alike", "statement": "A calculation for electrons and the same calculation written for holes (every electron operator exchanged with its conjugate, momenta reversed, the dispersion replaced by minus its transpose at the opposite momentum plus the potential of the full bands, the chemical potential reversed, the interaction with both pairs of indices exchanged) give the same physics. Green's functions of the holes are minus the transposed ones at the opposite frequency and momentum, self energies likewise; the density of the holes is one minus the density of the electrons; bare, RPA, screened and Bethe-Salpeter susceptibilities are those of the electrons with both pairs of indices exchanged, at the same frequency and momentum; mean field solutions of one problem are mean field solutions of the other, grand potentials differ by a known constant; one pass of the GW solver takes the two inputs to the two outputs. A problem that is its own image stays half filled. Sums over a symmetric window of fermionic frequencies respect this too.", "quantifier": "for every lattice and number of orbitals, every dispersion, self energy, interaction and vertex, every chemical potential, temperature, mesh, number of ranks and diagonalisation routine; in GW for every Green's function that falls off as one over the frequency and every transform that treats the two directions of time alike", "why_tests_cant": "A test on a particle-hole symmetric model has only one point in the space of models and cannot tell a wrong order of indices, a wrong sign of a momentum or a window that is cut at one end only; the claim compares two runs of every model.", "anchors": ["c++/triqs_tprf/lattice/gf.cpp: lattice_dyson_g0_wk, lattice_dyson_g_wk, lattice_dyson_g_w", "c++/triqs_tprf/lattice/chi_imfreq.cpp: chi0q_from_g_wk_PH, chi0r_from_gr_PH, chi0q_sum_nu, chiq_from_chi0q_and_gamma_PH", "c++/triqs_tprf/lattice/chi_imtime.cpp: chi0_tr_from_grt_PH, chi0_w0r_from_grt_PH", "c++/triqs_tprf/lattice/lindhard_chi00.cpp: lindhard_chi00", "c++/triqs_tprf/lattice/rpa.cpp: solve_rpa_PH", "c++/triqs_tprf/lattice/dynamical_screened_interaction.cpp: dynamical_screened_interaction_W", "c++/triqs_tprf/lattice/gw.cpp: gw_dynamic_sigma", "python/triqs_tprf/bse.py: solve_lattice_bse", "python/triqs_tprf/dbse.py: solve_lattice_dbse", "python/triqs_tprf/hf_solver.py: HartreeFockSolver", "python/triqs_tprf/gw_solver.py: GWSolver.solve_iter"]}
{"id": "C130", "title": "Solvers that make the same approximation agree", "statement": "Two solvers of the library that make the same approximation for the same model give the same result. (a) The Bethe-Salpeter solver with the constant vertex of get_gamma_rpa gives the summed susceptibility of solve_rpa_PH for chi0q_sum_nu of the same bubble, on both routes, and diverges at the same points; on growing frequency windows solve_lattice_bse with this vertex tends to solve_rpa_PH of the bubble from imaginary time. (b) HartreeFockResponse gives, for a small step, the static uniform Lindhard bubble and the susceptibility that solve_rpa_PH makes of it with the interaction of the Hartree-Fock solver. (c) GWSolver with hartree and fock and without gw, with the tensor of get_gw_tensor, has the self energy of HartreeFockSolver with the same H_int at every frequency and momentum; its sweep is the density_matrix_step, it looks for the zero of the same function of the chemical potential, and the two have the same self-consistent solutions.", "quantifier": "for every lattice, number of orbitals, temperature, chemical potential, interaction, bubble, dispersion, number of ranks, working eigensolver and frequency window; in (c) for every quartic interaction operator and every density routine that is exact on the Green's functions that occur", "why_tests_cant": "The solvers are separate code with separate index conventions, signs and normalisations; a comparison of two runs settles one model, and both could agree there by a symmetry of the model that hides an index permutation.", "anchors": ["python/triqs_tprf/rpa_tensor.py: get_gamma_rpa, get_rpa_tensor", "python/triqs_tprf/gw.py: get_gw_tensor", "python/triqs_tprf/bse.py: solve_lattice_bse", "c++/triqs_tprf/lattice/rpa.cpp: solve_rpa_PH", "c++/triqs_tprf/lattice/chi_imfreq.cpp: chi0q_sum_nu, chiq_sum_nu_from_chi0q_and_gamma_PH, chiq_from_chi0q_and_gamma_PH", "c++/triqs_tprf/lattice/lindhard_chi00.cpp: lindhard_chi00", "python/triqs_tprf/hf_response.py: HartreeFockResponse", "python/triqs_tprf/hf_solver.py: HartreeFockSolver.density_matrix_step, update_chemical_potential", "python/triqs_tprf/gw_solver.py: GWSolver.solve_iter"]}
{"id": "C131", "title": "Every solver keeps the reversal of motion", "statement": "Reading a model backwards (dispersion e(-k) transposed, interaction tensor with its four indices in reverse order, self energy transposed at -k; for hermitian models: complex conjugation, that is reversal of all motion) gives all results read backwards: Green's functions G(-k) transposed, local Green's functions transposed, bubbles, Lindhard, RPA and screened-interaction tensors with indices reversed at -q, generalised susceptibilities and vertices with indices and fermionic frequencies reversed, mean-field density matrices transposed with equal energies, chemical potential and number of particles; GWSolver makes the same number of passes with all parts of the self energy transposed at -k. So a model that is its own reversal has G(k) = G(-k) transposed and chi_abcd(q) = chi_dcba(-q), and no solver makes currents or moments out of nothing. The same holds for the dual Bethe-Salpeter solver.", "quantifier": "for every lattice, number of orbitals, temperature, chemical potential or number of particles, interaction, self energy, frequency (also real ones), transform between time and frequency, number of ranks and working eigensolver", "why_tests_cant": "The relation ties two runs with different inputs and every index order in the code enters; test models have real symmetric dispersions and interactions for which wrong index orders cancel.", "anchors": ["c++/triqs_tprf/lattice/gf.cpp: lattice_dyson_g_wk, lattice_dyson_g0_wk, lattice_dyson_g_w", "c++/triqs_tprf/lattice/chi_imtime.cpp: chi0_tr_from_grt_PH, chi0_w0r_from_grt_PH", "c++/triqs_tprf/lattice/chi_imfreq.cpp: chi0q_from_g_wk_PH, chiq_from_chi0q_and_gamma_PH", "c++/triqs_tprf/lattice/lindhard_chi00.cpp: lindhard_chi00", "c++/triqs_tprf/lattice/rpa.cpp: solve_rpa_PH", "c++/triqs_tprf/lattice/dynamical_screened_interaction.cpp: dynamical_screened_interaction_W", "python/triqs_tprf/bse.py: solve_lattice_bse", "python/triqs_tprf/dbse.py: solve_lattice_dbse", "python/triqs_tprf/hf_solver.py: HartreeFockSolver.density_matrix_step", "python/triqs_tprf/gw_solver.py: GWSolver.solve_iter"]}
{"id": "C132", "title": "At weak coupling the mean-field equations have one solution and the drivers find it", "statement": "If the mean field of a density deviation D has Frobenius norm at most c |D| and beta c < 4 (for a Hubbard interaction: beta |U| < 4), then at each chemical potential, and at each number of particles between zero and the number of orbitals, there is exactly one self-consistent density matrix. HartreeFockSolver.solve_iter with mixing between 0 and 1 then stops by itself, for every start M0, mu0, tolerance and earlier state of the solver object, after a number of passes that does not depend on nitermax, and the density matrix it reports is off from the solution by at most q/(1-q) tol times the norm of the last vector (q = beta c / 4, up to the constant that compares the norms of vectors and matrices). Two runs of solve_newton_mu that end at self-consistent density matrices report the same density matrix, bands and number of particles, whatever the starts. Beyond the bound this fails: for beta U > 4 the half-filled Hubbard site has three solutions.", "quantifier": "for every lattice, number of orbitals, hermitian dispersion, interaction tensor, temperature, start, tolerance, mixing, root finder that returns exact roots, and working eigensolver", "why_tests_cant": "Existence, uniqueness and convergence are statements about all starting points and unbounded numbers of iterations; a test runs a few starts and cannot exclude a second solution or a slow oscillation.", "anchors": ["python/triqs_tprf/hf_solver.py: HartreeFockSolver.solve_iter, HartreeFockSolver.density_matrix_step, HartreeFockSolver.solve_newton_mu, HartreeFockSolver.solve_setup, HartreeFockSolver.update_mean_field, HartreeFockSolver.update_chemical_potential"]}
{"id": "C133", "title": "Small errors in the input make small errors in the results", "statement": "A change of dispersion, self energy and chemical potential by D (Frobenius norm at each momentum) changes lattice_dyson_g_wk and lattice_dyson_g_fk with a causal self energy by at most |D|/(Im z)^2, where z is the frequency with its broadening and lies in the upper half plane, and the local functions lattice_dyson_g_w and lattice_dyson_g_f by at most the largest such change; eigenvectors may be chosen differently and numbers of MPI ranks may differ. The thermal density matrix of hf_solver changes by at most beta/4 times the root mean square change of the bands, at fixed mu and at fixed number of particles; the self-consistent density matrix at weak coupling (beta c < 4) by at most beta/4/(1 - beta c/4) times the change of dispersion and of the mean field made by the changed interaction. lindhard_chi00 is bounded by beta/4, changes by at most beta^2/4 times the change of mu, and by at most beta^2/2 + beta/(2|z|) times the change of the bands at every imaginary frequency above its tolerance. Violated at zero frequency: lindhard_chi00 takes the limit of equal levels whenever their distance is below the tolerance, so the result jumps as the bands vary; the jumps are at most beta^2/2 times the tolerance.", "quantifier": "for every lattice, number of orbitals, hermitian dispersion, causal self energy, temperature, chemical potential, tolerance, frequency, eigensolver that returns orthonormal eigenvectors, and number of MPI ranks, and every size of the change", "why_tests_cant": "Continuity with a rate is a statement about all pairs of inputs, including crossings of bands where single eigenvectors jump; a test compares a few pairs with a threshold.", "anchors": ["c++/triqs_tprf/lattice/gf.cpp: lattice_dyson_g_wk, lattice_dyson_g_fk, lattice_dyson_g_w, lattice_dyson_g_f", "c++/triqs_tprf/lattice/lindhard_chi00.cpp: lindhard_chi00", "python/triqs_tprf/hf_solver.py: HartreeFockSolver.update_density_matrix, HartreeFockSolver.solve_iter"]}
{"id": "C134", "title": "Grand potentials of different mean-field calculations compare as thermodynamics requires", "statement": "For any two self-consistent mean-field states at the same temperature, with different dispersions, interactions and chemical potentials, the difference of the reported Omega is at most the expectation value of H' - H in the first state minus the interaction energy of the difference D of the two density matrices with itself, and at least the expectation value of H' - H in the second state plus the interaction energy of D with itself; the same holds for Omega + mu N at fixed number of particles. In particular two solutions of one problem can only differ where the interaction gains energy from D, and their Omega differ by at most that energy. At weak coupling (beta c < 4) the derivative of Omega with respect to the strength of the interaction is the expectation value of the interaction (at fixed N: the derivative of Omega + mu N), Omega is the value of free particles plus the integral of that expectation value over the strength, and the number of particles grows with the chemical potential with slope at most n/(4/beta - c). The expectation value is the one of Wick's theorem; the reported E_int has the opposite sign (C48).", "quantifier": "for every lattice, number of orbitals, pair of hermitian dispersions, pair of interaction tensors with the symmetry of a two-body interaction, pair of chemical potentials, temperature and self-consistent solutions", "why_tests_cant": "The inequalities relate all pairs of problems and all their solutions; a test compares a few numbers, and a finite difference cannot show a derivative or an integral over the coupling.", "anchors": ["python/triqs_tprf/hf_solver.py: HartreeFockSolver.update_total_energy, HartreeFockSolver.update_non_int_free_energy, HartreeFockSolver.update_interaction_energy, HartreeFockSolver.update_density_matrix, HartreeFockSolver.update_mean_field"]}
{"id": "C135", "title": "The array helper functions work with every version of numpy", "statement": "np_inv, np_eigh and np_eigvalsh (used by HartreeFockSolver, HartreeFockResponse and the matrix RPA) act on every matrix of an array by itself, for any number and length of the leading axes, and give the same array with every version of numpy: is_numpy_newer_than compares releases by the numbers of their components, not as strings, and both branches return the same values. Violated: a version of numpy with another suffix than aN or bN (release candidates, development versions) raises ValueError in all three functions; and with numpy up to 1.8.0 np_eigvalsh raises an exception for a single matrix and drops the axis of the eigenvalues for matrices of one element.", "quantifier": "for every version string, every function of matrices, every shape and content of the array, and every content of the uninitialised memory", "why_tests_cant": "A test runs with one installed version of numpy and therefore one of the two branches.", "anchors": ["python/triqs_tprf/numpy_compat.py: is_numpy_newer_than, np_linalg_func, np_inv, np_eigh, np_eigvalsh"]}
{"id": "C136", "title": "Interactions, polarisations and vertices may be added in steps and expanded in powers", "statement": "solve_rpa_PH with the sum of two interactions gives the same as solve_rpa_PH with the second interaction applied to the result for the first, the second step existing exactly if the single step does; the negative interaction gives the bubble back; chi_rpa_spin and chi_rpa_charge of matrix_rpa.py do the same, with the sign of the charge channel when mixed. dynamical_screened_interaction_W with the sum of two polarisations equals screening, with the second, of the interaction already screened with the first (constrained RPA), and the negative polarisation gives the bare interaction back. Two vertices may be switched on one after the other in the Bethe-Salpeter equation, and solve_local_bse finds the added vertex. A change of the interaction or vertex changes the result exactly by chi (U' - U) chi'. If the product of the norms of bubble and interaction (bare interaction and polarisation, bubble and vertex) is q < 1, the inverse exists, the result is the sum of the ladder series, and the error after n terms is at most q^n |chi0|/(1 - q).", "quantifier": "for every number of orbitals, frequencies, momenta and MPI ranks, every bubble, interaction, polarisation and vertex for which the inverses of the first step and of the result exist; for the series every pair of tensors with q < 1", "why_tests_cant": "A test compares two evaluations for one interaction; additivity and the rate of convergence are statements about all of them.", "anchors": ["c++/triqs_tprf/lattice/rpa.cpp: solve_rpa_PH", "c++/triqs_tprf/lattice/dynamical_screened_interaction.cpp: screened_interaction_from_generic_susceptibility, dynamical_screened_interaction_W", "c++/triqs_tprf/lattice/chi_imfreq.cpp: chiq_from_chi0q_and_gamma_PH", "python/triqs_tprf/matrix_rpa.py: chi_rpa_spin, chi_rpa_charge", "python/triqs_tprf/bse.py: solve_local_bse"]}
{"id": "C137", "title": "Helpers for block Green's functions keep the data of every block", "statement": "BlockGf_data returns one row for each block with all elements of the block; whenever it returns, the set of elements of each row is the set of elements of the block, so the largest difference of two block functions, which the DMFT drivers of the documentation use to detect convergence, is right. legendre_filter returns for each block the Legendre coefficients nearest to the fitted ones (with those below the cutoff set to zero) among all functions with the jump of a fermionic Green's function. Violated: BlockGf_data takes the shape of the first block for all, so that a smaller block with one orbital after a larger one is repeated over all elements of the larger matrix, and the other order raises an exception; and the cutoff of legendre_filter does not hold in the result, because the enforced jump gives a value to all coefficients that were cut and that enter the jump.", "quantifier": "for every list of blocks of every shape, every content, every cutoff, and every fitting routine", "why_tests_cant": "A test uses blocks of equal shape, where nothing is repeated, and coefficients above the cutoff.", "anchors": ["python/triqs_tprf/utilities.py: BlockGf_data, legendre_filter"]}
{"id": "C138", "title": "Eigenvalues of the linearised Eliashberg equation are bounded by vertex over temperature", "statement": "With a Green's function of lattice_dyson_g_wk for a Hermitian dispersion, a real chemical potential and any damping self energy, no eigenvalue of the linearised Eliashberg product, computed by eliashberg_product or by eliashberg_product_fft with transforms that satisfy the convolution theorem, has a modulus above Gamma_max/(8 T), where Gamma_max is the largest norm of the vertex on the mesh. The bound does not depend on the numbers of frequencies, momenta and orbitals. So an instability (eigenvalue 1) needs a vertex of at least 8 T, and no gap is enlarged by more than this factor by one application. The constant cannot be improved.", "quantifier": "for every number of orbitals, frequencies, momenta and MPI ranks, every temperature, dispersion, damping self energy, vertex, gap and eigenvalue", "why_tests_cant": "A test finds eigenvalues for one vertex and temperature; that no vertex below 8 T gives an instability on any mesh is a statement about all of them.", "anchors": ["c++/triqs_tprf/lattice/eliashberg.cpp: eliashberg_product, eliashberg_product_fft, eliashberg_g_delta_g_product", "c++/triqs_tprf/lattice/gf.cpp: lattice_dyson_g_wk"]}
{"id": "C139", "title": "The RPA with a Lindhard bubble has no instability for interactions below four temperatures", "statement": "At every Matsubara frequency lindhard_chi00 of a Hermitian dispersion returns a bubble that multiplies no table of orbital pairs by more than 1/(4 T) in norm; no element exceeds 1/(4 T). So solve_rpa_PH with this bubble and an interaction tensor of norm below 4 T finds an invertible matrix at every frequency and momentum, and its result is bounded by (1/4T)/(1 - |U|/4T). A vanishing denominator needs |U| of at least 4 T. The bounds do not depend on lattice, dispersion, filling and number of orbitals, and cannot be improved: one level at the Fermi energy reaches them.", "quantifier": "for every number of orbitals, momenta and MPI ranks, every Hermitian dispersion, chemical potential, temperature, interaction and correct diagonalisation", "why_tests_cant": "A test evaluates one model; that no dispersion and filling makes the RPA singular is a statement about all of them.", "anchors": ["c++/triqs_tprf/lattice/lindhard_chi00.cpp: lindhard_chi00", "c++/triqs_tprf/lattice/rpa.cpp: solve_rpa_PH"]}
