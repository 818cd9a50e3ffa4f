{
 "claims": [
  {
   "property": "C01",
   "status": "proved",
   "theorems": [
    "C01_mpiView_concat",
    "C01_mpiView_exactly_one_rank",
    "C01_mpiView_balanced",
    "C01_mpiView_reads_inside"
   ],
   "note": "for every list of work items and every positive number of ranks"
  },
  {
   "property": "C02",
   "status": "proved",
   "theorems": [
    "C02_distributedAssign",
    "C02_distributedAccumulate",
    "C02_rank_independent"
   ],
   "note": "exact arithmetic (any additive commutative monoid); the all_reduce is modelled as the sum over the ranks"
  },
  {
   "property": "C03",
   "status": "proved",
   "theorems": [
    "C03_schedule_independent",
    "C03_accumulating_loop_value",
    "C03_shared_cell_loses_update"
   ],
   "note": "interleaving model of the thread loops; the negative theorem shows why per-iteration disjoint cells are needed"
  },
  {
   "property": "C04",
   "status": "proved",
   "theorems": [
    "C04_latticeDyson_solves",
    "C04_solution_unique",
    "C04_dyson_series_form",
    "C04_zero_sigma",
    "C04_overloads_agree",
    "C04_mu_shift"
   ],
   "note": ""
  },
  {
   "property": "C05",
   "status": "proved",
   "theorems": [
    "C05_local_is_average",
    "C05_matsubara",
    "C05_flat_band"
   ],
   "note": ""
  },
  {
   "property": "C74",
   "status": "proved",
   "theorems": [
    "C74_conjugation"
   ],
   "note": ""
  },
  {
   "property": "C14",
   "status": "partial",
   "theorems": [
    "C14_rpa_solves_unswapped",
    "C14_rpa_unique",
    "C14_documented_partial",
    "C14_documented_violated",
    "C14_rpa_noninteracting",
    "C14_rpa_push_through"
   ],
   "note": "documented equation refuted for complex interactions; proved for U(badc)=U(abcd); the equation actually solved is proved in full"
  },
  {
   "property": "C15",
   "status": "partial",
   "theorems": [
    "C15_matrix_rpa_partial",
    "C15_matrix_rpa_documented",
    "C15_matrix_rpa_violated"
   ],
   "note": "refuted for complex interactions; proved for U(badc)=U(abcd)"
  },
  {
   "property": "C16",
   "status": "proved",
   "theorems": [
    "C16_tensor_roundtrip",
    "C16_matrix_roundtrip",
    "C16_product_is_contraction"
   ],
   "note": "for every iteration order of the Python set"
  },
  {
   "property": "C17",
   "status": "partial",
   "theorems": [
    "C17_paths_agree",
    "C17_overloads_agree",
    "C17_screened_solves_unswapped",
    "C17_unique",
    "C17_no_screening",
    "C17_documented_partial",
    "C17_documented_violated"
   ],
   "note": "index order of the documented equation refuted; everything else proved"
  },
  {
   "property": "C18",
   "status": "proved",
   "theorems": [
    "C18_generalized_equals_bubble",
    "C18_routines_agree"
   ],
   "note": ""
  },
  {
   "property": "C22",
   "status": "proved",
   "theorems": [
    "C22_product_formula",
    "C22_ring_laws",
    "C22_inverse",
    "C22_inverse_laws",
    "C22_identity_PH"
   ],
   "note": "exact arithmetic over any field; matrix inverse of LAPACK modelled by Matrix.inv under IsUnit det"
  },
  {
   "property": "C23",
   "status": "proved",
   "theorems": [
    "C23_scalar_product",
    "C23_scalar_product_matrix"
   ],
   "note": ""
  },
  {
   "property": "C24",
   "status": "proved",
   "theorems": [
    "C24_chi_roundtrip",
    "C24_vertex_roundtrip"
   ],
   "note": ""
  },
  {
   "property": "C25",
   "status": "proved",
   "theorems": [
    "C25_lattice_bse",
    "C25_unique",
    "C25_local_limit",
    "C25_no_vertex"
   ],
   "note": ""
  },
  {
   "property": "C26",
   "status": "proved",
   "theorems": [
    "C26_trace_routes",
    "C26_triangle_routes",
    "C26_trivial_triangle",
    "C26_momentum_average"
   ],
   "note": ""
  },
  {
   "property": "C27",
   "status": "proved",
   "theorems": [
    "C27_tail_correction",
    "C27_refuses_small_tail",
    "C27_no_vertex",
    "C27_same_window",
    "C27_solve_lattice_bse"
   ],
   "note": "the tail-fitting density of triqs is an arbitrary functional"
  },
  {
   "property": "C28",
   "status": "proved",
   "theorems": [
    "C28_dual_bse_matrix",
    "C28_dual_routine"
   ],
   "note": "the frequency windows of all inputs are taken equal"
  },
  {
   "property": "C29",
   "status": "partial",
   "theorems": [
    "C29_doc_conserves",
    "C29_PH_partial",
    "C29_PHbar_partial",
    "C29_PP_partial",
    "C29_lossless",
    "C29_PP_violated",
    "C29_PPx_violated"
   ],
   "note": "PH and PH_bar proved; PP refuted (third argument is w-n' instead of w-n); bijectivity proved for all three"
  },
  {
   "property": "C30",
   "status": "proved",
   "theorems": [
    "C30_block_to_tensor",
    "C30_crossing",
    "C30_block_diagonal"
   ],
   "note": "a read of a crossing partner outside the mesh is modelled as zero"
  },
  {
   "property": "C31",
   "status": "partial",
   "theorems": [
    "C31_PH",
    "C31_PH_connected",
    "C31_PPx_partial",
    "C31_PP_violated",
    "C31_PPdoc_violated"
   ],
   "note": "PH proved; PP holds only in the PPx notation, refuted for from_3nu_PP"
  },
  {
   "property": "C06",
   "status": "proved",
   "theorems": [
    "C06_roundtrip",
    "C06_linear",
    "C06_constant_is_local",
    "C06_normalisation",
    "C06_delta"
   ],
   "note": "Lattice Fourier transforms as unnormalised DFT with 1/N on k to r; inverse of each other for every mesh shape and rank count."
  },
  {
   "property": "C07",
   "status": "proved",
   "theorems": [
    "C07_real_space_bubble",
    "C07_routines_agree",
    "C07_inverse",
    "C07_momentum_to_real"
   ],
   "note": "Bubble through real space equals the momentum sum at every point of the product mesh; all routine variants agree. chi0r_from_chi0q and chi0q_from_chi0r are inverse to each other."
  },
  {
   "property": "C08",
   "status": "partial",
   "theorems": [
    "C08_bubble_from_dispersion_partial",
    "C08_bubble_from_dispersion_violated"
   ],
   "note": "Holds at zero bosonic frequency; violated for every nonzero frequency since both propagators are taken at nu (concrete witness)."
  },
  {
   "property": "C09",
   "status": "proved",
   "theorems": [
    "C09_symmetry",
    "C09_value"
   ],
   "note": "Imaginary time bubble symmetry on all mesh points."
  },
  {
   "property": "C10",
   "status": "proved",
   "theorems": [
    "C10_affine_exact",
    "C10_constant",
    "C10_linear",
    "C10_reflection",
    "C10_static_bubble"
   ],
   "note": "Trapezoidal static bubble."
  },
  {
   "property": "C11",
   "status": "partial",
   "theorems": [
    "C11_value_at_minus_k",
    "C11_interpolation_partial",
    "C11_interpolation_violated"
   ],
   "note": "The code returns the value at minus k; the documented interpolation property holds only for inversion symmetric data."
  },
  {
   "property": "C12",
   "status": "proved",
   "theorems": [
    "C12_moments",
    "C12_tail_expansion",
    "C12_jump",
    "C12_tail_jump",
    "C12_tail_transform"
   ],
   "note": "Three pole tail model: moments, boundary jump and transform pair."
  },
  {
   "property": "C13",
   "status": "proved",
   "theorems": [
    "C13_roundtrip",
    "C13_refuses"
   ],
   "note": "Matsubara/imaginary time round trip with tail subtraction, and refusal of an unsuitable mesh."
  },
  {
   "property": "C20",
   "status": "proved",
   "theorems": [
    "C20_fermi",
    "C20_fermi_bounds",
    "C20_fermi_strictAnti",
    "C20_fermi_neg",
    "C20_bose",
    "C20_bose_fermi"
   ],
   "note": "exact real arithmetic"
  },
  {
   "property": "C21",
   "status": "partial",
   "theorems": [
    "C21_eigenbasis_independent",
    "C21_symmetry",
    "C21_degenerate_limit",
    "C21_equals_imaginary_time_bubble_partial",
    "C21_equals_imaginary_time_bubble_violated"
   ],
   "note": "symmetry, eigenbasis independence and limit proved in full; equality with the imaginary time bubble proved for time reversal symmetric dispersions and refuted for a band with e(k) != e(-k); LAPACK diagonalisation is any function meeting the spectral decomposition"
  },
  {
   "property": "C67",
   "status": "partial",
   "theorems": [
    "C67_ranks",
    "C67_jump",
    "C67_adjoint",
    "C67_equal_time",
    "C67_retarded_is_lindhard_partial",
    "C67_documented_partial",
    "C67_documented_violated"
   ],
   "note": "documented expression refuted (overall sign); with time reversal symmetry the result is exactly minus the documented one and its Laplace transform is the Lindhard function"
  },
  {
   "property": "C19",
   "status": "proved",
   "theorems": [
    "C19_split_add",
    "C19_parts"
   ],
   "note": "the TRIQS tail fit is an arbitrary functional"
  },
  {
   "property": "C55",
   "status": "partial",
   "theorems": [
    "C55_parse_partial",
    "C55_counts",
    "C55_single_row_violated"
   ],
   "note": "lines already tokenised; proved for every well-formed file with more than one row, refuted for one row (np.loadtxt drops the axis, the shape assertion fails)"
  },
  {
   "property": "C56",
   "status": "partial",
   "theorems": [
    "C56_wnk_window",
    "C56_G2_window",
    "C56_wnk_refuses_partial",
    "C56_wnk_window_violated"
   ],
   "note": "window content proved for both routines; refusal proved for the local routine and refuted for the lattice one"
  },
  {
   "property": "C57",
   "status": "proved",
   "theorems": [
    "C57_roundtrip",
    "C57_antitone",
    "C57_units"
   ],
   "note": "exact real arithmetic"
  },
  {
   "property": "C68",
   "status": "partial",
   "theorems": [
    "C68_refuses",
    "C68_dispersion",
    "C68_hermitian_partial",
    "C68_hermitian_violated",
    "C68_model_for_tests"
   ],
   "note": "hermitian for real amplitudes, refuted for complex ones"
  },
  {
   "property": "C69",
   "status": "proved",
   "theorems": [
    "C69_periodic",
    "C69_interior_and_boundary"
   ],
   "note": "the np.float alias used for the coordinates is not modelled"
  },
  {
   "property": "C70",
   "status": "proved",
   "theorems": [
    "C70_entry",
    "C70_tensor_roundtrip",
    "C70_matrix_roundtrip",
    "C70_product"
   ],
   "note": "C-ordered memory, one mesh axis"
  },
  {
   "property": "C32",
   "status": "proved",
   "theorems": [
    "C32_meaning",
    "C32_accepts",
    "C32_matrix_roundtrip",
    "C32_operator_roundtrip"
   ],
   "note": "TRIQS Operator class modelled as normal ordered monomial map, proved to be the CAR algebra"
  },
  {
   "property": "C33",
   "status": "proved",
   "theorems": [
    "C33_refuses",
    "C33_roundtrip",
    "C33_quartic",
    "C33_perm_sym"
   ],
   "note": "equality of stored operators, any iteration order"
  },
  {
   "property": "C34",
   "status": "proved",
   "theorems": [
    "C34_perm",
    "C34_pauli",
    "C34_conj",
    "C34_idempotent",
    "C34_symmetrize"
   ],
   "note": "in-place effect of quartic_pauli_symmetrize on its argument not modelled"
  },
  {
   "property": "C35",
   "status": "proved",
   "theorems": [
    "C35_substitution",
    "C35_identity",
    "C35_compose",
    "C35_linear",
    "C35_multiplicative_iff_unitary",
    "C35_quadratic"
   ],
   "note": "square U of the size of the operator list"
  },
  {
   "property": "C36",
   "status": "proved",
   "theorems": [
    "C36_substitution",
    "C36_roundtrip"
   ],
   "note": "lists of equal length"
  },
  {
   "property": "C37",
   "status": "proved",
   "theorems": [
    "C37_rpa_tensor",
    "C37_accepts",
    "C37_of_tensor"
   ],
   "note": ""
  },
  {
   "property": "C38",
   "status": "proved",
   "theorems": [
    "C38_split_of_assembled",
    "C38_assembled_of_split",
    "C38_susceptibility_split",
    "C38_susceptibility_assemble",
    "C38_susceptibility_refuses",
    "C38_general_invariant",
    "C38_quartic_invariant"
   ],
   "note": "reverse composition is the identity exactly for tensors invariant under all spin rotations"
  },
  {
   "property": "C39",
   "status": "partial",
   "theorems": [
    "C39_us",
    "C39_uc",
    "C39_split",
    "C39_hamiltonian",
    "C39_docstring_violated"
   ],
   "note": "agreement of implementations and equality with the RPA tensor of the Kanamori Hamiltonian proved for all parameters; the formula printed in the docstring (h.c. inside the sum over i != j) double counts spin flip and pair hopping"
  },
  {
   "property": "C40",
   "status": "partial",
   "theorems": [
    "C40_spin_fast",
    "C40_spin_slow_violated",
    "C40_spin_slow_partial"
   ],
   "note": "spin_fast=False returns the down block"
  },
  {
   "property": "C41",
   "status": "proved",
   "theorems": [
    "C41_decoupling",
    "C41_solvable",
    "C41_bubble"
   ],
   "note": ""
  },
  {
   "property": "C42",
   "status": "partial",
   "theorems": [
    "C42_frequency",
    "C42_momentum",
    "C42_orbital_partial",
    "C42_orbital_violated",
    "C42_check_frequency",
    "C42_check_momentum",
    "C42_check_orbital_partial",
    "C42_check_orbital_violated"
   ],
   "note": "Frequency and momentum parity proved for every input and mesh; orbital parity for at most three orbitals; from four orbitals on the pairing of triangle elements is wrong (violation proved for every norb >= 4). check_symmetry reports the parity of functions above the tolerance; for odd orbital symmetry with a vanishing pair it reports None (violation proved)."
  },
  {
   "property": "C43",
   "status": "partial",
   "theorems": [
    "C43_frequency",
    "C43_momentum",
    "C43_orbital_even_partial",
    "C43_orbital_odd",
    "C43_orbital_odd_violated",
    "C43_orbital_even_violated",
    "C43_idempotent"
   ],
   "note": "Frequency and momentum proved; even orbital symmetry for at most three orbitals; an odd function of at most three orbitals comes back negated, so the claim is violated there."
  },
  {
   "property": "C44",
   "status": "partial",
   "theorems": [
    "C44_order",
    "C44_all_partial",
    "C44_orbital_violated",
    "C44_refuses"
   ],
   "note": "Order independence proved for every number of orbitals; all requested parities hold, the orbital one for at most three orbitals (C44_orbital_violated: from four on it fails, whichever order is asked for). The input is not modified because the code works on gf.copy(), which the pure model reflects."
  },
  {
   "property": "C45",
   "status": "partial",
   "theorems": [
    "C45_readback",
    "C45_hermitian_partial",
    "C45_hermitian_violated",
    "C45_fit_roundtrip",
    "C45_block_hermitian",
    "C45_block_readback_partial",
    "C45_block_violated",
    "C45_block_fit_violated"
   ],
   "note": "Reading back proved for Symmetrizer at any size, hermiticity for at most three orbitals (violated for every larger number). BlockSymmetrizer: hermitian and label symmetric whenever accepted; reading back proved when all or none of the upper triangle is labelled, otherwise the round trip raises (proved)."
  },
  {
   "property": "C46",
   "status": "proved",
   "theorems": [
    "C46_mat",
    "C46_vec",
    "C46_refuses",
    "C46_hartree"
   ],
   "note": ""
  },
  {
   "property": "C47",
   "status": "proved",
   "theorems": [
    "C47_hermitian",
    "C47_linear",
    "C47_energy",
    "C47_derivative"
   ],
   "note": ""
  },
  {
   "property": "C48",
   "status": "partial",
   "theorems": [
    "C48_partial",
    "C48_violated",
    "C48_interaction",
    "C48_omega"
   ],
   "note": "The claim is violated: E_int carries the opposite sign of <H_int> for every interaction; the total energy is <H_kin> - <H_int>. The grand potential Omega is the variational one."
  },
  {
   "property": "C49",
   "status": "proved",
   "theorems": [
    "C49_solve_iter",
    "C49_refuses",
    "C49_mixing_zero",
    "C49_fixed_point"
   ],
   "note": ""
  },
  {
   "property": "C75",
   "status": "proved",
   "theorems": [
    "C75_basis",
    "C75_hermitian",
    "C75_number",
    "C75_derivative",
    "C75_occupation"
   ],
   "note": ""
  },
  {
   "property": "C50",
   "status": "proved",
   "theorems": [
    "C50_alter",
    "C50_alter_alter",
    "C50_self",
    "C50_pure",
    "C50_wf"
   ],
   "note": "Shallow: what attribute values refer to is not modelled. A collection with an attribute called self cannot be copied or altered (proved)."
  },
  {
   "property": "C51",
   "status": "proved",
   "theorems": [
    "C51_scan",
    "C51_positions"
   ],
   "note": ""
  },
  {
   "property": "C52",
   "status": "partial",
   "theorems": [
    "C52_step",
    "C52_partial",
    "C52_violated",
    "C52_stale"
   ],
   "note": "Violated: collections created without arguments share the default list. Proved when every collection gets its own list."
  },
  {
   "property": "C53",
   "status": "partial",
   "theorems": [
    "C53_inclusive",
    "C53_report",
    "C53_write",
    "C53_write_empty",
    "C53_invariant",
    "C53_add",
    "C53_other_violated"
   ],
   "note": "Proved for every nested history and every clock unless a top level timer is called Other, for which the report is wrong (violation proved)."
  },
  {
   "property": "C54",
   "status": "partial",
   "theorems": [
    "C54_partial",
    "C54_violated",
    "C54_negative"
   ],
   "note": "Violated: whenever a stop is refused for a wrong name the innermost timer is dropped with a negative recorded time."
  },
  {
   "property": "C73",
   "status": "partial",
   "theorems": [
    "C73_partial",
    "C73_violated",
    "C73_context"
   ],
   "note": "Violated when the decorated method raises; holds when it returns, and for the context manager in both cases."
  },
  {
   "property": "C76",
   "status": "proved",
   "theorems": [
    "C76_reorder",
    "C76_sorted"
   ],
   "note": ""
  },
  {
   "property": "C64",
   "status": "partial",
   "theorems": [
    "C64_partial",
    "C64_real_space",
    "C64_violated"
   ],
   "note": "Violated for momentum dependent interactions; the real space routine uses only v(q=0)."
  },
  {
   "property": "C65",
   "status": "partial",
   "theorems": [
    "C65_relation",
    "C65_partial",
    "C65_violated"
   ],
   "note": "Proved for v(-q)=v(q); in general the real space routine uses v(-q)."
  },
  {
   "property": "C66",
   "status": "partial",
   "theorems": [
    "C66_value",
    "C66_refuses",
    "C66_dynamic",
    "C66_linear",
    "C66_zero",
    "C66_static_limit",
    "C66_static_overloads",
    "C66_doc_violated"
   ],
   "note": "All parts proved; the documented static sum holds only for v(-q)=v(q). Frequency transforms, tail fit and density enter as arbitrary linear maps."
  },
  {
   "property": "C77",
   "status": "partial",
   "theorems": [
    "C77_eigenbasis",
    "C77_static_is_fock",
    "C77_unscreened",
    "C77_total",
    "C77_bose_pole",
    "C77_finite_violated"
   ],
   "note": "All parts proved; finiteness fails exactly for frequency meshes containing zero."
  },
  {
   "property": "C78",
   "status": "proved",
   "theorems": [
    "C78_bosonTau",
    "C78_spectrum",
    "C78_continuation"
   ],
   "note": ""
  },
  {
   "property": "C79",
   "status": "proved",
   "theorems": [
    "C79_causal"
   ],
   "note": ""
  },
  {
   "property": "C58",
   "status": "proved",
   "theorems": [
    "C58_fft_value",
    "C58_constant",
    "C58_agree",
    "C58_exclusive",
    "C58_plain_convPair",
    "C58_default_meshes",
    "C58_infinite_sum",
    "C58_sum_limit",
    "C58_fft_limit",
    "C58_limit"
   ],
   "note": "Exact for transforms forming a convolution pair, which the transforms without tail corrections are proved to be; with tail corrections both routes are proved to converge to the same product. The moments come from the tail fit of TRIQS, whose accuracy is a hypothesis of the limit."
  },
  {
   "property": "C59",
   "status": "partial",
   "theorems": [
    "C59_accepts",
    "C59_in_range",
    "C59_theory",
    "C59_header",
    "C59_header_partial",
    "C59_header_violated"
   ],
   "note": "The equation of the theory documentation is proved; the one in the header is the equation of the transposed gap, so the claim as documented there holds only for symmetric gaps."
  },
  {
   "property": "C60",
   "status": "proved",
   "theorems": [
    "C60_linear",
    "C60_momentum",
    "C60_parity",
    "C60_exchange",
    "C60_frequency"
   ],
   "note": ""
  },
  {
   "property": "C61",
   "status": "partial",
   "theorems": [
    "C61_phi",
    "C61_phi_partial",
    "C61_triplet",
    "C61_singlet_partial",
    "C61_singlet_iff",
    "C61_singlet_violated"
   ],
   "note": "Ladder vertex and triplet combination proved; the singlet combination has the opposite sign of the density ladder compared to the documentation (agrees exactly if that ladder vanishes)."
  },
  {
   "property": "C62",
   "status": "partial",
   "theorems": [
    "C62_bounded_unit",
    "C62_count",
    "C62_eigenpair_partial",
    "C62_shifted_partial",
    "C62_exact",
    "C62_eigenvector_start",
    "C62_negative_violated",
    "C62_minus_one_violated",
    "C62_eigenpair_violated"
   ],
   "note": "Bound on the passes, unit norm and residual of the positive branch proved; violated in the second stage (division by zero; mirrored eigenvalue)."
  },
  {
   "property": "C63",
   "status": "partial",
   "theorems": [
    "C63_dense_partial",
    "C63_multiple_partial",
    "C63_count",
    "C63_position_violated",
    "C63_broadcast_violated",
    "C63_scaling_violated",
    "C63_zero_violated",
    "C63_tolerance_violated"
   ],
   "note": "Holds for arrays without numerical zeros up to the tolerances; false positives, false negatives and an exception otherwise."
  },
  {
   "property": "C72",
   "status": "partial",
   "theorems": [
    "C72_value",
    "C72_single_orbital",
    "C72_violated"
   ],
   "note": "The exact value of both susceptibilities is proved: the signs of the two channels are exchanged, so the claim fails."
  },
  {
   "property": "C80",
   "status": "partial",
   "theorems": [
    "C80_sum",
    "C80_given_partial",
    "C80_given_violated",
    "C80_fit",
    "C80_dlr",
    "C80_constant_transform"
   ],
   "note": "Holds for float, array and Green's function constants; other numerical types are silently replaced by the fit."
  },
  {
   "property": "C71",
   "status": "partial",
   "theorems": [
    "C71_bethe_salpeter_partial",
    "C71_high_temperature_violated"
   ],
   "note": "Proved at every bosonic frequency for e^(beta U/2) >= 3 where no denominator vanishes, as an equation of infinite matrices with convergent sums. The code violates the property for every e^(beta U/2) < 3 at every bosonic frequency: B is built from abs(3 - exp(beta U/2))."
  },
  {
   "property": "C81",
   "status": "partial",
   "theorems": [
    "C81_sum_rule_partial",
    "C81_high_temperature_violated"
   ],
   "note": "Proved for e^(beta U/2) >= 3 (all bosonic frequencies, unconditional double sum). Violated by the code for every e^(beta U/2) < 3 at every bosonic frequency."
  },
  {
   "property": "C82",
   "status": "partial",
   "theorems": [
    "C82_bare_response_partial",
    "C82_field_response",
    "C82_hartree_bare",
    "C82_hartree_bare_step",
    "C82_bare_response_violated"
   ],
   "note": "Proved for real symmetric dispersions and all operators; the code violates the property for complex hermitian dispersions (witness with Pauli matrices, all steps)."
  },
  {
   "property": "C83",
   "status": "partial",
   "theorems": [
    "C83_response_partial",
    "C83_hf_equation",
    "C83_hartree_response",
    "C83_hartree_equation",
    "C83_hartree_refuses",
    "C83_response_violated"
   ],
   "note": "Hartree-Fock: proved for real dispersions and interactions with the symmetries of get_rpa_tensor (shown for real tensors of self-adjoint operators). Hartree: proved also for complex dispersions. Violated for complex dispersions in Hartree-Fock (witness). Linear equation at every step for both."
  },
  {
   "property": "C84",
   "status": "partial",
   "theorems": [
    "C84_step_ignored",
    "C84_step_violated",
    "C84_chi0_k_violated"
   ],
   "note": "The code violates the property: eps is ignored, compute_chi0_k raises AttributeError. Proved that the step is always 1e-9."
  },
  {
   "property": "C85",
   "status": "partial",
   "theorems": [
    "C85_filling",
    "C85_range",
    "C85_default_range",
    "C85_unique",
    "C85_exists",
    "C85_mu0_ignored",
    "C85_flat_violated"
   ],
   "note": "Result, uniqueness, existence and the exact set of accepted fillings are proved; that every possible filling is found is violated for flat bands with the default range."
  },
  {
   "property": "C86",
   "status": "partial",
   "theorems": [
    "C86_solve_iter",
    "C86_mixing",
    "C86_newton_partial",
    "C86_newton_mu",
    "C86_newton_violated"
   ],
   "note": "solve_iter and solve_newton_mu (density) in full; solve_newton if the root finder returns the point it evaluated last, violated otherwise."
  },
  {
   "property": "C87",
   "status": "partial",
   "theorems": [
    "C87_run",
    "C87_dyson",
    "C87_density",
    "C87_susceptibility",
    "C87_parts_partial",
    "C87_restart",
    "C87_total",
    "C87_init",
    "C87_parts_violated",
    "C87_no_iteration_violated"
   ],
   "note": "Everything in the statement is proved for at least one iteration; that the separately reported parts add up is proved when all are enabled and violated otherwise, and the Dyson equation is violated for maxiter=0."
  },
  {
   "property": "C88",
   "status": "proved",
   "theorems": [
    "C88_operator",
    "C88_accepts",
    "C88_mean_field",
    "C88_lattice",
    "C88_doc_violated"
   ],
   "note": "Representation, acceptance and agreement with the Hartree-Fock solver in full; the wording of the docstring is refuted."
  },
  {
   "property": "C89",
   "status": "partial",
   "theorems": [
    "C89_found_partial",
    "C89_default_bracket",
    "C89_bracket_violated",
    "C89_tolerance_violated"
   ],
   "note": "The returned chemical potential is proved right when the search succeeds; that it succeeds and that N is within N_tol are violated."
  },
  {
   "property": "C90",
   "status": "partial",
   "theorems": [
    "C90_run",
    "C90_hartree",
    "C90_hartree_violated"
   ],
   "note": "Proved for runs without Hartree part; the Hartree part is half of the one with spin, so the property is violated when it is enabled."
  },
  {
   "property": "C91",
   "status": "partial",
   "theorems": [
    "C91_sign",
    "C91_screening",
    "C91_lindhard",
    "C91_lindhard_screens",
    "C91_lindhard_enhances",
    "C91_documented_violated"
   ],
   "note": "Screening is proved for the sign of the solver; the documented use of the helper functions has the opposite sign and enhances the interaction."
  },
  {
   "property": "C92",
   "status": "partial",
   "theorems": [
    "C92_routes_partial",
    "C92_static",
    "C92_reversal",
    "C92_reversible",
    "C92_density",
    "C92_lindhard_partial",
    "C92_save_memory",
    "C92_tail_corrected",
    "C92_tail_same_limit",
    "C92_frequency_violated"
   ],
   "note": "The frequency route converges to the time route at the opposite frequency: agreement is proved at zero frequency, and at all frequencies for density components of time reversal symmetric systems; violated for the other components. chi0q_sum_nu_tail_corr_PH has the limit of chi0q_sum_nu, with error C/N^2 (the TRIQS function density is modelled as a sum with a three pole tail)."
  },
  {
   "property": "C93",
   "status": "partial",
   "theorems": [
    "C93_relative",
    "C93_index",
    "C93_mesh_index",
    "C93_components",
    "C93_components_refused",
    "C93_extended",
    "C93_interpolator",
    "C93_interpolates",
    "C93_periodic",
    "C93_unextended",
    "C93_scattered",
    "C93_numpy_violated"
   ],
   "note": "Proved for a numpy that still has np.float; with numpy 1.24 or later the default interpolator cannot be built. The Delaunay triangulation of the scattered interpolator is not modelled, only its data."
  },
  {
   "property": "C94",
   "status": "partial",
   "theorems": [
    "C94_put_partial",
    "C94_put_violated",
    "C94_strip",
    "C94_fake"
   ],
   "note": "put_gf_on_mesh keeps the values for meshes of the same temperature and statistics, which it does not check; strip_sigma and add_fake_bosonic_mesh in full."
  },
  {
   "property": "C95",
   "status": "proved",
   "theorems": [
    "C95_contraction",
    "C95_refused",
    "C95_matrix",
    "C95_pade"
   ],
   "note": "The Pade approximant itself is an arbitrary map."
  },
  {
   "property": "C96",
   "status": "partial",
   "theorems": [
    "C96_orbitals",
    "C96_read_partial",
    "C96_mesh_partial",
    "C96_total_partial",
    "C96_single_violated",
    "C96_numpy_violated",
    "C96_missing_violated",
    "C96_boundary_violated",
    "C96_mixed_violated"
   ],
   "note": "Proved for complete files with more than one row each, momenta with relative coordinates below one and equal momenta in the three sets; the other cases are not refused. File sets with different numbers of orbitals are not modelled."
  },
  {
   "property": "C97",
   "status": "partial",
   "theorems": [
    "C97_lattice",
    "C97_reciprocal_partial",
    "C97_reciprocal_violated",
    "C97_positions_partial",
    "C97_digits_violated",
    "C97_single_violated",
    "C97_list_violated",
    "C97_bohr_violated",
    "C97_bands_partial",
    "C97_bands_violated"
   ],
   "note": "Lattice vectors in full. Orbital positions lose the digits beyond the eighth character, fail for one orbital, for the list returned by the lattice parser and for files in Bohr; bands need an empty line after the last block; reciprocal vectors of a file without header are not refused."
  },
  {
   "property": "C98",
   "status": "partial",
   "theorems": [
    "C98_specific_partial",
    "C98_zero_partial",
    "C98_defined",
    "C98_refused",
    "C98_static_violated"
   ],
   "note": "Equal at all nonzero frequencies and for vertices with one frequency. At zero frequency with several frequencies the vertex part is equal, but the bubble is integrated by the trapezoidal rule instead of the Fourier transform, and the results differ."
  },
  {
   "property": "C99",
   "status": "partial",
   "theorems": [
    "C99_tail_partial",
    "C99_static_partial",
    "C99_density_partial",
    "C99_violated"
   ],
   "note": "The correction tends to the difference of the bubble at the frequency and at its negative: zero for the static susceptibility and for density components with time reversal symmetry, not zero for other components."
  },
  {
   "property": "C100",
   "status": "partial",
   "theorems": [
    "C100_fit",
    "C100_moments",
    "C100_converges",
    "C100_rate",
    "C100_short_violated"
   ],
   "note": "Moments and convergence with an explicit rate for every nine times differentiable function. Meshes with fewer than nine points pass the length check of the transform although the fit reads beyond their end."
  },
  {
   "property": "C101",
   "status": "proved",
   "theorems": [
    "C101_operators",
    "C101_moment",
    "C101_thermal",
    "C101_matrix"
   ],
   "note": "Second moment for every linear functional; thermal Green's functions in any Banach algebra with a cyclic trace, and for matrices without further assumptions."
  },
  {
   "property": "C102",
   "status": "partial",
   "theorems": [
    "C102_drivers",
    "C102_jump",
    "C102_residual",
    "C102_upper_partial",
    "C102_density_partial",
    "C102_complete_partial",
    "C102_thermal_partial",
    "C102_four_violated",
    "C102_positivity_meaning",
    "C102_positivity_violated",
    "C102_positivity_pydlr_violated"
   ],
   "note": "Jump for every number of orbitals; density and completeness in all components for up to three orbitals, above the diagonal for all. With four orbitals exact Green's functions are excluded; the positivity option contradicts the jump with the TRIQS driver and is empty with the other one. The option realvalued is C125; block symmetrisers are not covered, constraints are taken to be met exactly."
  },
  {
   "property": "C103",
   "status": "proved",
   "theorems": [
    "C103_real",
    "C103_stability",
    "C103_product",
    "C103_divergence",
    "C103_enhancement",
    "C103_order"
   ],
   "note": "chi0 in the limit of a vanishing finite difference step for reality and stability, any tensor for product, divergence and order; np.linalg.eigvals and argsort by their specification; the variational grand potential is the specification"
  },
  {
   "property": "C104",
   "status": "partial",
   "theorems": [
    "C104_dyson_free",
    "C104_dyson",
    "C104_bubble",
    "C104_bubble_transform",
    "C104_bubble_direct",
    "C104_bubble_time",
    "C104_bubble_static",
    "C104_tensor",
    "C104_rpa_partial",
    "C104_rpa_iff",
    "C104_matrix_rpa",
    "C104_screened",
    "C104_bse",
    "C104_vertex_F",
    "C104_gw_static",
    "C104_gw_dynamic",
    "C104_gw_sweep",
    "C104_gw_partial",
    "C104_gw_fixed",
    "C104_lindhard_partial",
    "C104_lindhard_iff",
    "C104_real_time_partial",
    "C104_hartree_fock",
    "C104_hartree_fock_energy",
    "C104_eliashberg",
    "C104_eliashberg_fft",
    "C104_vertex_iff",
    "C104_rpa_violated",
    "C104_rpa_real_partial",
    "C104_vertex_violated",
    "C104_scalar_product_partial",
    "C104_scalar_product_violated",
    "C104_real_time_violated",
    "C104_bracket_violated",
    "C104_g0w_violated"
   ],
   "note": "Proved for Green's functions, all Matsubara bubbles, Bethe-Salpeter equation, screened interaction, GW self energies and sweeps, Hartree-Fock steps and energies, Eliashberg products and the interaction tensor. solve_rpa_PH and the pairing vertices need different rotations of the same tensor, so results with get_rpa_tensor depend on phases of the orbitals; likewise Lindhard and real time bubbles, the dual contraction, the default bracket of the chemical potential and the real frequency GW routine. GW loop only with a fixed number of passes and linear transforms."
  },
  {
   "property": "C105",
   "status": "proved",
   "theorems": [
    "C105_causal",
    "C105_local",
    "C105_asymptotic",
    "C105_free",
    "C105_sum_rule"
   ],
   "note": "exact arithmetic; the sum rule for the free Green's function with the frequency of every mesh point arbitrary"
  },
  {
   "property": "C106",
   "status": "partial",
   "theorems": [
    "C106_lindhard",
    "C106_time",
    "C106_static",
    "C106_frequencies",
    "C106_interaction",
    "C106_stoner",
    "C106_critical",
    "C106_monotone",
    "C106_hubbard",
    "C106_window_violated"
   ],
   "note": "The static bubble from chi0q_sum_nu is negative when levels lie farther from the Fermi energy than the frequency window reaches. Everything else proved; exact arithmetic, linalg::eigenelements by its specification, imaginary time integral exact or trapezoidal."
  },
  {
   "property": "C107",
   "status": "partial",
   "theorems": [
    "C107_mixed",
    "C107_same",
    "C107_power",
    "C107_power_iteration",
    "C107_accepts",
    "C107_values",
    "C107_solver_start",
    "C107_seeded",
    "C107_start_violated",
    "C107_reproducible_violated",
    "C107_zero_violated"
   ],
   "note": "Lock step proved for every solver when all ranks start from the same vector. The default start vector is drawn separately on every rank with fresh entropy: a correct Krylov solver then returns wrong eigenvalues; seeding numpy.random before the call has no effect; a purely imaginary Green's function gives the zero vector. The random generator is abstract, scipy's eigs is any program using matvec only."
  },
  {
   "property": "C108",
   "status": "partial",
   "theorems": [
    "C108_roundtrip_partial",
    "C108_names",
    "C108_untouched",
    "C108_clean",
    "C108_two",
    "C108_dot_violated",
    "C108_relative_violated",
    "C108_h5_violated"
   ],
   "note": "Holds exactly for names of the form stem.tar.gz with no dot in the stem (C108_names). The file system is a map from names to contents; HDF5, tar and gzip are not modelled beyond this."
  },
  {
   "property": "C109",
   "status": "partial",
   "theorems": [
    "C109_archive_partial",
    "C109_series",
    "C109_nested_violated",
    "C109_items_violated",
    "C109_keys_violated",
    "C109_convert",
    "C109_convert_violated",
    "C109_copy_violated",
    "C109_misspelt_violated",
    "C109_gw"
   ],
   "note": "Round trip proved for nested values without booleans in lists or dictionaries, with string keys, and without parameters named like the methods used in loading. That the archive turns bool into np.bool_ and keys into strings is taken from the comments in ParameterCollection.py."
  },
  {
   "property": "C110",
   "status": "proved",
   "theorems": [
    "C110_solvable",
    "C110_zero_mode",
    "C110_freq_time_freq",
    "C110_time_freq_time",
    "C110_lattice",
    "C110_roundtrip",
    "C110_exact_freq",
    "C110_exact_time",
    "C110_evaluate",
    "C110_error",
    "C110_density",
    "C110_bubble"
   ],
   "note": "For every choice of pairwise different poles and nodes (with the bosonic frequency zero if zero is a pole); the fits of TRIQS/cppdlr are exact solutions of the square linear system. How nodes are chosen is not modelled."
  },
  {
   "property": "C111",
   "status": "partial",
   "theorems": [
    "C111_term",
    "C111_pair",
    "C111_exact_partial",
    "C111_linear",
    "C111_value",
    "C111_constant",
    "C111_ranks",
    "C111_double_violated"
   ],
   "note": "Value of the product proved for every mesh, vertex and gap. It equals the one of the routine for Matsubara meshes when no pole occurs in both factors; a double pole is not in the span of the mesh and is replaced by an interpolation. convolve of cppdlr is the exact convolution integral."
  },
  {
   "property": "C112",
   "status": "partial",
   "theorems": [
    "C112_positive_partial",
    "C112_single_partial",
    "C112_arnoldi_partial",
    "C112_repulsive",
    "C112_pairs",
    "C112_complex_violated"
   ],
   "note": "Real eigenvalues proved when the pair propagator is positive (one orbital with inversion symmetry always is); conjugate pairs in general. False with several orbitals: two free levels with a real symmetric vertex have the eigenvalue i, of which the code returns 0."
  },
  {
   "property": "C113",
   "status": "proved",
   "theorems": [
    "C113_bubble",
    "C113_bubble_route",
    "C113_bubble_tau",
    "C113_lindhard",
    "C113_real_time",
    "C113_rpa",
    "C113_rpa_exchange",
    "C113_rpa_real",
    "C113_tensor",
    "C113_rpa_hamiltonian",
    "C113_screened",
    "C113_screened_opt",
    "C113_bse",
    "C113_bse_sum",
    "C113_lattice_bse",
    "C113_vertex",
    "C113_dual",
    "C113_density",
    "C113_fock",
    "C113_hartree",
    "C113_gw_dynamic",
    "C113_gw_sigma",
    "C113_gw_solver",
    "C113_tau_to_w",
    "C113_fit",
    "C113_tau_to_w_fit",
    "C113_w_to_tau",
    "C113_w_to_tau_real",
    "C113_tau_to_w_real"
   ],
   "note": "The tail fit of TRIQS (moments of a frequency function, density) is external: the GW theorems assume that it commutes with the conjugation; the transforms of the code with given moments are proved to."
  },
  {
   "property": "C114",
   "status": "partial",
   "theorems": [
    "C114_mean_field",
    "C114_interaction",
    "C114_interaction_partial",
    "C114_agree",
    "C114_operator",
    "C114_interaction_violated"
   ],
   "note": "Mean field and agreement with the Hartree-Fock solver proved. The reported energies are those of the full density matrix: with hybridising bands E_int contains the exchange energy that the mean field leaves out (dimer at half filling)."
  },
  {
   "property": "C115",
   "status": "proved",
   "theorems": [
    "C115_moments",
    "C115_w_to_tau",
    "C115_stable",
    "C115_close",
    "C115_product",
    "C115_bubble",
    "C115_poles",
    "C115_lindhard",
    "C115_gw"
   ],
   "note": "The tail fit of TRIQS, which supplies the moments to the transform from frequencies to times, is external: the theorems for the complete routes assume its moments accurate (m1 to 1/N^3, m2 and m3 to 1/N^2), and C115_w_to_tau gives the effect of any error of the moments."
  },
  {
   "property": "C116",
   "status": "partial",
   "theorems": [
    "C116_no_response",
    "C116_particle_number",
    "C116_static",
    "C116_compressibility",
    "C116_rpa",
    "C116_unscreened",
    "C116_dielectric",
    "C116_thomas_fermi",
    "C116_time",
    "C116_no_response_violated"
   ],
   "note": "Proved for the particle number without restriction, for other conserved operators of lindhard_chi00 with time reversal symmetry; without it the response of a conserved operator is not zero (two-level system, the Hamiltonian itself), because the pair indices of the Lindhard bubble are exchanged. The imaginary time bubble has the law in all cases."
  },
  {
   "property": "C117",
   "status": "partial",
   "theorems": [
    "C117_fourier",
    "C117_dyson_free",
    "C117_dyson",
    "C117_bubble",
    "C117_bubble_shift",
    "C117_bubble_time",
    "C117_lindhard_partial",
    "C117_lindhard_shift",
    "C117_lindhard_violated",
    "C117_rpa",
    "C117_screened",
    "C117_bse",
    "C117_gw_sweep",
    "C117_gw_pass",
    "C117_gw",
    "C117_gw_init",
    "C117_hf_step",
    "C117_hf_setup",
    "C117_hf",
    "C117_eliashberg",
    "C117_eliashberg_fft",
    "C117_eigenvalue",
    "C117_representation"
   ],
   "note": "Proved for every routine in the list except the Lindhard bubble with a complex matrix S: its indices follow the rule of interactions, so it has the symmetry of susceptibilities only if S is real (witness: one site, two orbitals). The Fourier transforms between frequency and time in the GW solver are assumed linear over the complex numbers."
  },
  {
   "property": "C118",
   "status": "partial",
   "theorems": [
    "C118_import",
    "C118_names_partial",
    "C118_strip_sigma_partial",
    "C118_solve_iter_partial",
    "C118_solve_iter_hf_partial",
    "C118_reciprocal_partial",
    "C118_bubble_setup_violated",
    "C118_chi0_w0k_violated",
    "C118_interp1d_violated",
    "C118_strip_sigma_violated",
    "C118_solve_iter_violated",
    "C118_wout_violated"
   ],
   "note": "All 26 modules and 291 of 299 functions and class bodies. The other eight read unbound names: three always, one with debug=True, one without iterations, three for empty files (witnesses). The programs are extracted from the Python sources by tools/names_extract.py, which is trusted."
  },
  {
   "property": "C119",
   "status": "proved",
   "theorems": [
    "C119_calls",
    "C119_imports",
    "C119_order"
   ],
   "note": "Calls with * or ** arguments and methods of other objects are not included; types of arguments (the choice among overloads) are not modelled."
  },
  {
   "property": "C120",
   "status": "partial",
   "theorems": [
    "C120_get_chi0_wnk",
    "C120_specific",
    "C120_g_wk",
    "C120_sigma",
    "C120_chi0_PH",
    "C120_chi0_PP",
    "C120_from_3nu_PH",
    "C120_from_3nu_PH_bar",
    "C120_from_3nu_PP",
    "C120_default_violated",
    "C120_specific_default_violated",
    "C120_dbse_violated",
    "C120_assertion_violated",
    "C120_block_violated"
   ],
   "note": "For each routine the exact condition on the mesh sizes is proved (nwf + nw - 1 frequencies have to fit), for every rule for values outside. No routine checks it: the default arguments of get_chi0_wnk with nw > 1 and of get_chi0_nk_at_specific_w, the assertions of solve_lattice_dbse and of chi0_n_from_e_k_sigma_w_PH are insufficient, and block_3nu_AABB_to_tensor_valued lacks values on every mesh."
  },
  {
   "property": "C121",
   "status": "partial",
   "theorems": [
    "C121_free",
    "C121_wick",
    "C121_expectation",
    "C121_bound",
    "C121_self_consistent",
    "C121_solve_iter",
    "C121_entropy",
    "C121_number",
    "C121_entropy_violated"
   ],
   "note": "The bound, the free grand potential, the thermal state and Wick's theorem are proved on the Fock space of the lattice. The thermodynamic relation holds with the energy E_kin - E_int in place of the reported E_tot = E_kin + E_int (C121_entropy); with E_tot it is false, and the entropy formed from the reported numbers can be negative (C121_entropy_violated)."
  },
  {
   "property": "C122",
   "status": "partial",
   "theorems": [
    "C122_gf_struct",
    "C122_composed",
    "C122_accepts",
    "C122_no_interaction",
    "C122_whole_partial",
    "C122_index_map",
    "C122_index_map_dag",
    "C122_index_map_refuses",
    "C122_constant_violated",
    "C122_ignored_violated",
    "C122_scaled_violated"
   ],
   "note": "Which interactions are accepted is characterised exactly; an accepted interaction with only four-operator terms is represented completely. Violated: terms with two, six or more operators on the orbitals are accepted and ignored; a constant term raises a ValueError from tuple unpacking; operators with a prefactor pass as fundamental and are then treated with and without it."
  },
  {
   "property": "C123",
   "status": "partial",
   "theorems": [
    "C123_green",
    "C123_chi_partial",
    "C123_static",
    "C123_high_temperature_violated"
   ],
   "note": "The Green's function and the static susceptibility are exact for all parameters. The susceptibility is exact at all frequencies when exp(beta U/2) >= 3; for exp(beta U/2) < 3 the absolute value under the root of B makes it differ from the exact one at every bosonic frequency, for all equal fermionic frequencies (C123_high_temperature_violated)."
  },
  {
   "property": "C124",
   "status": "partial",
   "theorems": [
    "C124_setup",
    "C124_iter",
    "C124_newton",
    "C124_newton_mu",
    "C124_reuse_newton_mu",
    "C124_reuse_newton_partial",
    "C124_reuse_iter_partial",
    "C124_history_violated",
    "C85_mu0_ignored"
   ],
   "note": "Starting points in full. Independence of earlier calls: solve_newton_mu in full, the two drivers at fixed number if mu0 is given; without mu0 it is violated (C124_history_violated)."
  },
  {
   "property": "C125",
   "status": "partial",
   "theorems": [
    "C125_real_partial",
    "C125_symmetric_violated",
    "C125_jump",
    "C125_density_partial",
    "C125_imaginary_violated",
    "C125_complex_violated",
    "C125_target",
    "C125_complete_partial"
   ],
   "note": "Real values and the jump for every number of orbitals; symmetry, density relation and completeness for up to three. The imaginary parts of the quadratic term and of the interaction are dropped without an error (C125_imaginary_violated), after which the documented relation cannot hold (C125_complex_violated). Constraints are taken to be met exactly, default symmetriser."
  },
  {
   "property": "C126",
   "status": "partial",
   "theorems": [
    "C126_dyson",
    "C126_bubble",
    "C126_impurity",
    "C126_vertex",
    "C126_bse",
    "C126_dbse",
    "C126_rpa",
    "C126_eliashberg",
    "C126_eliashberg_fft",
    "C126_lindhard_partial",
    "C126_lindhard_violated",
    "C126_real_time",
    "C126_atom",
    "C126_atom_vertex",
    "C126_hf_step",
    "C126_hf_energy",
    "C126_hf_partial",
    "C126_hf_newton_partial",
    "C126_hf_mu",
    "C126_gw_sweep",
    "C126_gw_init",
    "C126_gw_partial",
    "C126_gw_violated",
    "C126_gw_bracket_partial",
    "C126_gw_bracket_violated",
    "C126_g0w"
   ],
   "note": "Full for everything without a threshold. Lindhard function and GW solver: if the threshold is given in the unit (`_partial`); with the fixed one it is violated (C126_lindhard_violated, C126_gw_violated), as is the default bracket under a shift of the zero (C126_gw_bracket_violated). The drivers of the mean field and GW solvers need a root finder without unit; for root finders of finite accuracy C126_hf_mu bounds the difference of the chemical potentials. C126_real_time: the routine has no chemical potential, so only the unit."
  },
  {
   "property": "C127",
   "status": "proved",
   "theorems": [
    "C127_dyson",
    "C127_bubble",
    "C127_rpa",
    "C127_screened",
    "C127_local_vertex",
    "C127_lattice_bse",
    "C127_eliashberg",
    "C127_eliashberg_fft",
    "C127_rpa_vertex",
    "C127_lindhard",
    "C127_g0w",
    "C127_hf_step",
    "C127_hf_energies",
    "C127_hf_solutions",
    "C127_gw_sweep",
    "C127_gw_loop",
    "C127_gw_stop"
   ],
   "note": "At one chemical potential, exact arithmetic. At a fixed number of particles the chemical potential is common to all parts, so the parts are compared at the one found for the whole (C127_hf_step, C127_gw_sweep hold for this case too). The transforms of the GW solver are arbitrary functions that map zero to zero."
  },
  {
   "property": "C128",
   "status": "partial",
   "theorems": [
    "C128_dyson",
    "C128_bubble",
    "C128_rpa",
    "C128_screened",
    "C128_lattice_bse",
    "C128_lindhard",
    "C128_hf_step",
    "C128_hf_energies",
    "C128_hf_solutions",
    "C128_gw_dynamic_actual",
    "C128_gw_dynamic_partial",
    "C128_gw_pass_partial",
    "C128_gw_violated",
    "C128_vertex_actual",
    "C128_eliashberg_partial",
    "C128_eliashberg_violated"
   ],
   "note": "Holds for the Dyson equation, the bubbles, RPA, screening, Bethe-Salpeter equations, Lindhard function and the mean field solver. Violated by the GW self energy (C128_gw_violated: the Hubbard interaction on a ring of six sites with one or two sites in a cell) because the polarisation counts distances from the first to the second pair and gw_dynamic_sigma from the second to the first; it would hold with W at the opposite momentum (C128_gw_dynamic_partial) and it holds without the dynamic part (C128_gw_pass_partial). Violated by the Eliashberg product with the RPA vertices (C128_eliashberg_violated), whose complex conjugation reverses the direction (C128_vertex_actual); the product itself is covariant for a vertex with the right direction (C128_eliashberg_partial)."
  },
  {
   "property": "C129",
   "status": "partial",
   "theorems": [
    "C129_dyson",
    "C129_dyson_local",
    "C129_transform",
    "C129_bubble",
    "C129_bubble_tau",
    "C129_lindhard",
    "C129_rpa",
    "C129_screened",
    "C129_bse",
    "C129_vertex",
    "C129_dual",
    "C129_tensor",
    "C129_hf_step",
    "C129_hf_solutions",
    "C129_hf_half",
    "C129_hf_omega",
    "C129_gw",
    "C129_gw_solutions",
    "C129_gw_density",
    "C129_sums",
    "C129_window_partial",
    "C129_window_violated"
   ],
   "note": "Proved for all routines named in the property. Violated by the sum over a finite window of fermionic frequencies at every size of the window (C129_window_violated, first bosonic frequency, one level): the product G(nu)G(nu+omega) leaves the window at its upper end only. It holds when the window is mapped to itself by nu -> -nu-omega (C129_window_partial), that is at zero bosonic frequency."
  },
  {
   "property": "C130",
   "status": "partial",
   "theorems": [
    "C130_same_poles",
    "C130_bse_rpa_partial",
    "C130_bse_documented",
    "C130_bse_rpa_violated",
    "C130_window_partial",
    "C130_window_limit",
    "C130_response_partial",
    "C130_response_violated",
    "C130_gw_sigma",
    "C130_gw_step",
    "C130_gw_target",
    "C130_gw_solution",
    "C130_gw_converse"
   ],
   "note": "(c) holds. (a) holds for interactions with U(badc) = U(abcd), in particular real ones, and is violated for complex ones: solve_rpa_PH does not permute the indices as it documents, the Bethe-Salpeter route does. (b) holds for dispersions with real matrix elements and is violated for complex hermitian ones, for which HartreeFockResponse misses the antisymmetric part."
  },
  {
   "property": "C131",
   "status": "partial",
   "theorems": [
    "C131_dyson",
    "C131_dyson_local",
    "C131_transform",
    "C131_bubble",
    "C131_bubble_tau",
    "C131_lindhard",
    "C131_lindhard_symmetric",
    "C131_rpa",
    "C131_screened",
    "C131_bse",
    "C131_vertex",
    "C131_dual_partial",
    "C131_dual_violated",
    "C131_tensor",
    "C131_hf_step",
    "C131_hf_energies",
    "C131_hf_solutions",
    "C131_hf_symmetric",
    "C131_gw_density",
    "C131_gw",
    "C131_gw_run",
    "C131_gw_solve",
    "C131_gw_start",
    "C131_gw_symmetric"
   ],
   "note": "Holds everywhere except in the dual Bethe-Salpeter solver, which takes the same triangle vertex on both sides: it holds there for impurities that are their own reversal and is violated for others. The mean-field and GW statements assume that the interaction tensor allows exchange of its two pairs of operators."
  },
  {
   "property": "C132",
   "status": "proved",
   "theorems": [
    "C132_monotone",
    "C132_unique",
    "C132_contraction",
    "C132_exists",
    "C132_exists_number",
    "C132_error",
    "C132_solve_iter",
    "C132_newton_mu",
    "C132_sharp"
   ],
   "note": "C132_solve_iter is about runs that end without an exception (the search of the chemical potential may refuse, C85) and assumes a root finder with exact roots; the number of passes may depend on the start."
  },
  {
   "property": "C133",
   "status": "partial",
   "theorems": [
    "C133_dyson",
    "C133_dyson_local",
    "C133_density",
    "C133_mean_field",
    "C133_lindhard_bound",
    "C133_lindhard_mu",
    "C133_lindhard_tolerance",
    "C133_lindhard",
    "C133_lindhard_static_partial",
    "C133_lindhard_violated"
   ],
   "note": "Violated by lindhard_chi00 at zero frequency, where the result jumps when the distance of two levels crosses the tolerance (C133_lindhard_violated); C133_lindhard_static_partial bounds the jumps. All other parts are proved in full; frequencies of lindhard_chi00 are purely imaginary."
  },
  {
   "property": "C134",
   "status": "proved",
   "theorems": [
    "C134_compare",
    "C134_free_energy",
    "C134_same",
    "C134_filling",
    "C134_coupling",
    "C134_coupling_number",
    "C134_integration"
   ],
   "note": "About states that obey the relations DensityOf and EnergyOf between the reported quantities, which the drivers establish (C86), with the density matrix as its own input (self-consistent)."
  },
  {
   "property": "C135",
   "status": "partial",
   "theorems": [
    "C135_version_partial",
    "C135_numbers_partial",
    "C135_prerelease",
    "C135_release",
    "C135_suffix_violated",
    "C135_linalg",
    "C135_eigh",
    "C135_eigvalsh_partial",
    "C135_eigvalsh_violated"
   ],
   "note": "Violated for versions with a suffix such as rc1 or .dev0 (C135_suffix_violated) and by np_eigvalsh with numpy up to 1.8.0 for one matrix or one orbital (C135_eigvalsh_violated); the _partial theorems cover all other cases."
  },
  {
   "property": "C136",
   "status": "proved",
   "theorems": [
    "C136_rpa_steps",
    "C136_rpa_undo",
    "C136_rpa_change",
    "C136_matrix_rpa_steps",
    "C136_screen_steps",
    "C136_unscreen",
    "C136_bse_steps",
    "C136_bse_change",
    "C136_rpa_series",
    "C136_screen_series",
    "C136_bse_series"
   ],
   "note": "Norms are square roots of sums of squares of all tensor elements. The equations are those the code solves, see C14 and C17 for the index order."
  },
  {
   "property": "C137",
   "status": "partial",
   "theorems": [
    "C137_data_partial",
    "C137_elements",
    "C137_data_refused",
    "C137_data_violated",
    "C137_jump",
    "C137_nearest",
    "C137_cut_violated"
   ],
   "note": "Violated for blocks of different shape (C137_data_violated) and by the cutoff (C137_cut_violated). The TRIQS function enforce_discontinuity is modelled as the projection along the weights by which the coefficients enter the jump; legendre_filter for blocks with one orbital."
  },
  {
   "property": "C138",
   "status": "proved",
   "theorems": [
    "C138_product",
    "C138_product_fft",
    "C138_eigenvalue",
    "C138_eigenvalue_fft",
    "C138_causal",
    "C138_instability",
    "C138_sharp"
   ],
   "note": "The norm of the vertex is the square root of the sum of squares of all elements at one frequency and momentum. The Fourier route is covered for transforms that satisfy the convolution theorem exactly (C58_default_meshes gives the transforms of the code with vanishing moments)."
  },
  {
   "property": "C139",
   "status": "proved",
   "theorems": [
    "C139_bubble",
    "C139_elements",
    "C139_rpa",
    "C139_instability",
    "C139_sharp"
   ],
   "note": "The norm of the interaction is the square root of the sum of squares of all elements. Matsubara frequencies only: on the real axis the bubble has poles."
  }
 ]
}