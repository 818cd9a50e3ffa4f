import Verif.Names.Data.Ids
import Verif.Names.Calls

/-!
# Calls and imports between the modules of the package

Written by `/verif/tools/names_extract.py`.
-/

set_option linter.style.nameCheck false

namespace Verif.Names

/-- OperatorUtils.py:68 -/
def s_op_is_fundamental : List Sig := [
  ⟨[n_op], [n_op], false, false, []⟩]

/-- OperatorUtils.py:85 -/
def s_op_serialize_fundamental : List Sig := [
  ⟨[n_op], [n_op], false, false, []⟩]

/-- OperatorUtils.py:95 -/
def s_get_operator_index_map : List Sig := [
  ⟨[n_fundamental_operators, n_include_dag], [n_fundamental_operators], false, false, []⟩]

/-- OperatorUtils.py:136 -/
def s_quartic_permutation_symmetrize : List Sig := [
  ⟨[n_U], [n_U], false, false, []⟩]

/-- OperatorUtils.py:144 -/
def s_quartic_conjugation_symmetrize : List Sig := [
  ⟨[n_U], [n_U], false, false, []⟩]

/-- OperatorUtils.py:151 -/
def s_quartic_pauli_symmetrize : List Sig := [
  ⟨[n_U], [n_U], false, false, []⟩]

/-- ParameterCollection.py:205 -/
def s_ParameterCollections : List Sig := [
  ⟨[n_objects], [], false, false, []⟩]

/-- ParameterCollection.py:96 -/
def s_self_copy : List Sig := [
  ⟨[], [], false, false, []⟩]

/-- ParameterCollection.py:76 -/
def s_self_items : List Sig := [
  ⟨[], [], false, false, []⟩]

/-- ParameterCollection.py:82 -/
def s_self_dict : List Sig := [
  ⟨[], [], false, false, []⟩]

/-- ParameterCollection.py:220 -/
def s_self_getattr_from_objects : List Sig := [
  ⟨[n_attr], [n_attr], false, false, []⟩]

/-- ParameterCollection.py:216 -/
def s_self_set_sorted_order : List Sig := [
  ⟨[n_sorted_idx], [n_sorted_idx], false, false, []⟩]

/-- ParameterCollection.py:73 -/
def s_ParameterCollection : List Sig := [
  ⟨[], [], false, true, []⟩]

/-- hubbard_atom_desc.py:23 -/
def s_single_particle_greens_function : List Sig := [
  ⟨[n_nw, n_beta, n_U], [n_nw, n_beta, n_U], false, false, []⟩]

/-- freq_conv_desc.py:24 -/
def s_block_iw_AB_to_matrix_valued : List Sig := [
  ⟨[n_bg_AB], [n_bg_AB], false, false, []⟩]

/-- hubbard_atom_desc.py:47 -/
def s_chi_ph_magnetic : List Sig := [
  ⟨[n_nw, n_nwf, n_beta, n_U], [n_nw, n_nwf, n_beta, n_U], false, false, []⟩]

/-- chi_from_gg2_desc.py:24 -/
def s_chi0_from_gg2_PH : List Sig := [
  ⟨[n_g, n_g2], [n_g, n_g2], false, false, []⟩]

/-- linalg_desc.py:24, linalg_desc.py:90 -/
def s_inverse_PH : List Sig := [
  ⟨[n_g], [n_g], false, false, []⟩,
  ⟨[n_g], [n_g], false, false, []⟩]

/-- hubbard_atom_desc.py:71 -/
def s_gamma_ph_magnetic : List Sig := [
  ⟨[n_nw, n_nwf, n_beta, n_U], [n_nw, n_nwf, n_beta, n_U], false, false, []⟩]

/-- ase_timing.py:85 -/
def s_self_start : List Sig := [
  ⟨[n_name], [n_name], false, false, []⟩]

/-- ase_timing.py:90 -/
def s_self_stop : List Sig := [
  ⟨[n_name], [], false, false, []⟩]

/-- chi_from_gg2_desc.py:71 -/
def s_chi_from_gg2_PH : List Sig := [
  ⟨[n_g, n_g2], [n_g, n_g2], false, false, []⟩]

/-- lattice_desc.py:277, lattice_desc.py:291 -/
def s_fourier_wk_to_wr : List Sig := [
  ⟨[n_g_wk], [n_g_wk], false, false, []⟩,
  ⟨[n_g_wk], [n_g_wk], false, false, []⟩]

/-- lattice_desc.py:1500 -/
def s_chi0r_from_gr_PH : List Sig := [
  ⟨[n_nw, n_nn, n_g_nr], [n_nw, n_nn, n_g_nr], false, false, []⟩]

/-- lattice_desc.py:1595 -/
def s_chi0q_from_chi0r : List Sig := [
  ⟨[n_chi_wnr], [n_chi_wnr], false, false, []⟩]

/-- lattice_desc.py:1524 -/
def s_chi0_nr_from_gr_PH_at_specific_w : List Sig := [
  ⟨[n_nw_index, n_nn, n_g_nr], [n_nw_index, n_nn, n_g_nr], false, false, []⟩]

/-- lattice_utils.py:66 -/
def s_add_fake_bosonic_mesh : List Sig := [
  ⟨[n_gf, n_beta], [n_gf], false, false, []⟩]

/-- logo.py:27 -/
def s_tprf_banner : List Sig := [
  ⟨[], [], false, false, []⟩]

/-- lattice_utils.py:191 -/
def s_imtime_bubble_chi0_wk : List Sig := [
  ⟨[n_g_wk, n_nw, n_save_memory, n_verbose], [n_g_wk], false, false, []⟩]

/-- bse.py:158 -/
def s_get_chi0_wnk : List Sig := [
  ⟨[n_g_wk, n_nw, n_nwf], [n_g_wk], false, false, []⟩]

/-- lattice_desc.py:1615 -/
def s_chi0q_sum_nu : List Sig := [
  ⟨[n_chi_wnk], [n_chi_wnk], false, false, []⟩]

/-- lattice_desc.py:1691 -/
def s_chiq_sum_nu_from_chi0q_and_gamma_PH : List Sig := [
  ⟨[n_chi0_wnk, n_gamma_ph_wnn], [n_chi0_wnk, n_gamma_ph_wnn], false, false, []⟩]

/-- bse.py:256 -/
def s_get_chi0_nk_at_specific_w : List Sig := [
  ⟨[n_g_wk, n_nw_index, n_nwf], [n_g_wk], false, false, []⟩]

/-- lattice_desc.py:1736 -/
def s_chiq_sum_nu_from_g_wk_and_gamma_PH : List Sig := [
  ⟨[n_g_wk, n_gamma_ph_wnn, n_tail_corr_nwf], [n_g_wk, n_gamma_ph_wnn], false, false, []⟩]

/-- lattice_desc.py:1738 -/
def s_chiq_sum_nu_from_e_k_sigma_w_and_gamma_PH : List Sig := [
  ⟨[n_mu, n_e_k, n_sigma_w, n_gamma_ph_wnn, n_tail_corr_nwf], [n_mu, n_e_k, n_sigma_w, n_gamma_ph_wnn], false, false, []⟩]

/-- linalg_desc.py:96, linalg_desc.py:183 -/
def s_product_PH : List Sig := [
  ⟨[n_A, n_B], [n_A, n_B], false, false, []⟩,
  ⟨[n_A, n_B], [n_A, n_B], false, false, []⟩]

/-- lattice_desc.py:1712 -/
def s_chiq_sum_nu_from_chi0q_and_gamma_and_L_wn_PH : List Sig := [
  ⟨[n_chi0_wnk, n_gamma_ph_wnn, n_L_wn], [n_chi0_wnk, n_gamma_ph_wnn, n_L_wn], false, false, []⟩]

/-- eliashberg.py:196 -/
def s_preprocess_gamma_for_fft : List Sig := [
  ⟨[n_Gamma_pp_wk, n_Gamma_pp_const_k], [n_Gamma_pp_wk], false, false, []⟩]

/-- eliashberg.py:258 -/
def s_semi_random_initial_delta : List Sig := [
  ⟨[n_g_wk, n_nr_factor, n_seed], [n_g_wk], false, false, []⟩]

/-- eliashberg.py:338 -/
def s_power_method_LR : List Sig := [
  ⟨[n_matvec, n_init, n_tol, n_max_it], [n_matvec, n_init], false, false, []⟩]

/-- eliashberg.py:301 -/
def s_implicitly_restarted_arnoldi_method : List Sig := [
  ⟨[n_matvec, n_init, n_tol, n_k], [n_matvec, n_init], false, false, []⟩]

/-- lattice_desc.py:1247, lattice_desc.py:1262 -/
def s_dynamic_and_constant_to_tr : List Sig := [
  ⟨[n_Gamma_pp_dyn_wk, n_Gamma_pp_const_k], [n_Gamma_pp_dyn_wk, n_Gamma_pp_const_k], false, false, []⟩,
  ⟨[n_Gamma_pp_dyn_wk, n_Gamma_pp_const_k], [n_Gamma_pp_dyn_wk, n_Gamma_pp_const_k], false, false, []⟩]

/-- lattice_desc.py:598 -/
def s_split_into_dynamic_wk_and_constant_k : List Sig := [
  ⟨[n_chi_wk], [n_chi_wk], false, false, []⟩]

/-- OperatorUtils.py:112 -/
def s_quadratic_matrix_from_operator : List Sig := [
  ⟨[n_op, n_fundamental_operators], [n_op, n_fundamental_operators], false, false, []⟩]

/-- rpa_tensor.py:58 -/
def s_get_rpa_tensor : List Sig := [
  ⟨[n_H_int, n_fundamental_operators], [n_H_int, n_fundamental_operators], false, false, []⟩]

/-- fitdlr.py:108 -/
def s_triqs_driver : List Sig := [
  ⟨[n_cmesh], [n_cmesh], false, false, []⟩]

/-- fitdlr.py:207 -/
def s_constrained_lstsq_dlr_from_tau : List Sig := [
  ⟨[n_dlr, n_h_ab, n_U_abcd, n_tau_i, n_g_iaa, n_beta, n_positivity, n_discontinuity, n_density, n_realvalued, n_ftol, n_symmetrizer], [n_dlr, n_h_ab, n_U_abcd, n_tau_i, n_g_iaa, n_beta], false, false, []⟩]

/-- fitdlr.py:403 -/
def s_Symmetrizer : List Sig := [
  ⟨[n_nx, n_no], [n_nx, n_no], false, false, []⟩]

/-- fitdlr.py:431 -/
def s_unique_non_zero : List Sig := [
  ⟨[n_arr], [n_arr], false, false, []⟩]

/-- fitdlr.py:164 -/
def s_self___eval_T : List Sig := [
  ⟨[n_tau_i], [n_tau_i], false, false, []⟩]

/-- fitdlr.py:146 -/
def s_self_initial_guess_from_tau_lstsq : List Sig := [
  ⟨[n_tau_i, n_G_iaa, n_beta], [n_tau_i, n_G_iaa, n_beta], false, false, []⟩]

/-- lattice_desc.py:309, lattice_desc.py:323 -/
def s_fourier_wr_to_tr : List Sig := [
  ⟨[n_g_wr, n_nt], [n_g_wr], false, false, []⟩,
  ⟨[n_g_wr, n_nt], [n_g_wr], false, false, []⟩]

/-- lattice_desc.py:1317, lattice_desc.py:1335 -/
def s_chi0_tr_from_grt_PH : List Sig := [
  ⟨[n_g_tr], [n_g_tr], false, false, []⟩,
  ⟨[n_g_tr], [n_g_tr], false, false, []⟩]

/-- lattice_desc.py:1402, lattice_desc.py:1424 -/
def s_chi_wr_from_chi_tr : List Sig := [
  ⟨[n_chi_tr, n_nw], [n_chi_tr, n_nw], false, false, []⟩,
  ⟨[n_chi_tr, n_nw], [n_chi_tr, n_nw], false, false, []⟩]

/-- lattice_desc.py:1450, lattice_desc.py:1472 -/
def s_chi_wk_from_chi_wr : List Sig := [
  ⟨[n_chi_wr], [n_chi_wr], false, false, []⟩,
  ⟨[n_chi_wr], [n_chi_wr], false, false, []⟩]

/-- OperatorUtils.py:192 -/
def s_quartic_tensor_from_operator : List Sig := [
  ⟨[n_op, n_fundamental_operators, n_perm_sym], [n_op, n_fundamental_operators], false, false, []⟩]

/-- ase_timing.py:75 -/
def s_Timer : List Sig := [
  ⟨[n_print_levels], [], false, false, []⟩]

/-- ase_timing.py:199 -/
def s_timer : List Sig := [
  ⟨[n_name], [n_name], false, false, []⟩]

/-- lattice_desc.py:1474, lattice_desc.py:1496 -/
def s_chi_wr_from_chi_wk : List Sig := [
  ⟨[n_chi_wk], [n_chi_wk], false, false, []⟩,
  ⟨[n_chi_wk], [n_chi_wk], false, false, []⟩]

/-- lattice_desc.py:622, lattice_desc.py:635 -/
def s_rho_k_from_g_wk : List Sig := [
  ⟨[n_g_wk], [n_g_wk], false, false, []⟩,
  ⟨[n_g_wk], [n_g_wk], false, false, []⟩]

/-- lattice_desc.py:701, lattice_desc.py:704 -/
def s_hartree_sigma : List Sig := [
  ⟨[n_v_k, n_rho_r], [n_v_k, n_rho_r], false, false, []⟩,
  ⟨[n_v_k, n_g_wk], [n_v_k, n_g_wk], false, false, []⟩]

/-- lattice_desc.py:702, lattice_desc.py:728 -/
def s_fock_sigma : List Sig := [
  ⟨[n_v_r, n_rho_r], [n_v_r, n_rho_r], false, false, []⟩,
  ⟨[n_v_k, n_g_wk], [n_v_k, n_g_wk], false, false, []⟩]

/-- lattice_desc.py:1426, lattice_desc.py:1448 -/
def s_chi_tr_from_chi_wr : List Sig := [
  ⟨[n_chi_wr, n_ntau], [n_chi_wr], false, false, []⟩,
  ⟨[n_chi_wr, n_ntau], [n_chi_wr], false, false, []⟩]

/-- lattice_desc.py:769, lattice_desc.py:790 -/
def s_gw_dynamic_sigma : List Sig := [
  ⟨[n_W_tr, n_g_tr], [n_W_tr, n_g_tr], false, false, []⟩,
  ⟨[n_W_tr, n_g_tr], [n_W_tr, n_g_tr], false, false, []⟩]

/-- lattice_desc.py:325, lattice_desc.py:339 -/
def s_fourier_tr_to_wr : List Sig := [
  ⟨[n_g_tr, n_nw], [n_g_tr], false, false, []⟩,
  ⟨[n_g_tr, n_nw], [n_g_tr], false, false, []⟩]

/-- lattice_desc.py:293, lattice_desc.py:307 -/
def s_fourier_wr_to_wk : List Sig := [
  ⟨[n_g_wr], [n_g_wr], false, false, []⟩,
  ⟨[n_g_wr], [n_g_wr], false, false, []⟩]

/-- lattice_desc.py:892, lattice_desc.py:917, lattice_desc.py:919, lattice_desc.py:944, lattice_desc.py:970, lattice_desc.py:972 -/
def s_dynamical_screened_interaction_W : List Sig := [
  ⟨[n_PI_wk, n_V_k], [n_PI_wk, n_V_k], false, false, []⟩,
  ⟨[n_PI_wk, n_V_k], [n_PI_wk, n_V_k], false, false, []⟩,
  ⟨[n_PI_fk, n_V_k], [n_PI_fk, n_V_k], false, false, []⟩,
  ⟨[n_PI_wk, n_V_wk], [n_PI_wk, n_V_wk], false, false, []⟩,
  ⟨[n_PI_wk, n_V_wk], [n_PI_wk, n_V_wk], false, false, []⟩,
  ⟨[n_PI_fk, n_V_fk], [n_PI_fk, n_V_fk], false, false, []⟩]

/-- lattice_desc.py:997, lattice_desc.py:1022, lattice_desc.py:1024, lattice_desc.py:1049, lattice_desc.py:1074, lattice_desc.py:1076 -/
def s_generalized_susceptibility : List Sig := [
  ⟨[n_chi_wk, n_V_k], [n_chi_wk, n_V_k], false, false, []⟩,
  ⟨[n_chi_wk, n_V_k], [n_chi_wk, n_V_k], false, false, []⟩,
  ⟨[n_chi_fk, n_V_k], [n_chi_fk, n_V_k], false, false, []⟩,
  ⟨[n_chi_wk, n_V_wk], [n_chi_wk, n_V_wk], false, false, []⟩,
  ⟨[n_chi_wk, n_V_wk], [n_chi_wk, n_V_wk], false, false, []⟩,
  ⟨[n_chi_fk, n_V_fk], [n_chi_fk, n_V_fk], false, false, []⟩]

/-- lattice_desc.py:57, lattice_desc.py:86, lattice_desc.py:119, lattice_desc.py:148 -/
def s_lattice_dyson_g_wk : List Sig := [
  ⟨[n_mu, n_e_k, n_sigma_w], [n_mu, n_e_k, n_sigma_w], false, false, []⟩,
  ⟨[n_mu, n_e_k, n_sigma_w], [n_mu, n_e_k, n_sigma_w], false, false, []⟩,
  ⟨[n_mu, n_e_k, n_sigma_wk], [n_mu, n_e_k, n_sigma_wk], false, false, []⟩,
  ⟨[n_mu, n_e_k, n_sigma_wk], [n_mu, n_e_k, n_sigma_wk], false, false, []⟩]

/-- lattice_desc.py:27, lattice_desc.py:55 -/
def s_lattice_dyson_g0_wk : List Sig := [
  ⟨[n_mu, n_e_k, n_mesh], [n_mu, n_e_k, n_mesh], false, false, []⟩,
  ⟨[n_mu, n_e_k, n_mesh], [n_mu, n_e_k, n_mesh], false, false, []⟩]

/-- gw_solver.py:257 -/
def s_self_dyson_equation : List Sig := [
  ⟨[n_mu, n_e_k, n_sigma_wk, n_wmesh, n_N_fix], [n_mu, n_e_k], false, false, []⟩]

/-- gw_solver.py:184 -/
def s_self_calc_rho_k : List Sig := [
  ⟨[n_g_wk], [n_g_wk], false, false, []⟩]

/-- gw_solver.py:189 -/
def s_self_calc_rho_r : List Sig := [
  ⟨[n_g_wk], [n_g_wk], false, false, []⟩]

/-- gw_solver.py:173 -/
def s_self_calc_rho_loc : List Sig := [
  ⟨[n_rho_r], [n_rho_r], false, false, []⟩]

/-- gw_solver.py:178 -/
def s_self_calc_total_density : List Sig := [
  ⟨[n_rho_loc], [n_rho_loc], false, false, []⟩]

/-- gw_solver.py:280 -/
def s_self__dyson_equation_dispatch : List Sig := [
  ⟨[n_mu, n_e_k, n_sigma_wk, n_wmesh], [n_mu, n_e_k], false, false, []⟩]

/-- gw_solver.py:245 -/
def s_self_susceptibiltiy : List Sig := [
  ⟨[n_P_wk, n_W_wk], [n_P_wk, n_W_wk], false, false, []⟩]

/-- gw_solver.py:406 -/
def s_self_logo : List Sig := [
  ⟨[], [], false, false, []⟩]

/-- gw_solver.py:196 -/
def s_self_hartree_sigma : List Sig := [
  ⟨[n_V_k, n_rho_r], [n_V_k, n_rho_r], false, false, []⟩]

/-- gw_solver.py:201 -/
def s_self_fock_sigma : List Sig := [
  ⟨[n_V_r, n_rho_r], [n_V_r, n_rho_r], false, false, []⟩]

/-- gw_solver.py:229 -/
def s_self_polarization : List Sig := [
  ⟨[n_g_wk], [n_g_wk], false, false, []⟩]

/-- gw_solver.py:236 -/
def s_self_screened_interaction : List Sig := [
  ⟨[n_P_wk, n_V_k, n_spinless], [n_P_wk, n_V_k], false, false, []⟩]

/-- gw_solver.py:206 -/
def s_self_gw_dynamic_sigma : List Sig := [
  ⟨[n_W_dyn_wk, n_g_wk], [n_W_dyn_wk, n_g_wk], false, false, []⟩]

/-- numpy_compat.py:39 -/
def s_np_eigh : List Sig := [
  ⟨[n_A], [n_A], false, false, []⟩]

/-- hf_response.py:76 -/
def s_self__compute_drho_k_dop : List Sig := [
  ⟨[n_op], [n_op], false, false, []⟩]

/-- hf_response.py:150 -/
def s_self__compute_chi0_kabcd : List Sig := [
  ⟨[], [], false, false, []⟩]

/-- hf_response.py:126 -/
def s_self__compute_R_kabcd : List Sig := [
  ⟨[n_field_prefactor], [], false, false, []⟩]

/-- hf_response.py:160 -/
def s_self_logo' : List Sig := [
  ⟨[], [], false, false, []⟩]

/-- hf_response.py:68 -/
def s_self__compute_drho_dop : List Sig := [
  ⟨[n_op], [n_op], false, false, []⟩]

/-- hf_response.py:226 -/
def s_self__to_matrix_AB : List Sig := [
  ⟨[n_tensor_abcd], [n_tensor_abcd], false, false, []⟩]

/-- hf_response.py:230 -/
def s_self__to_tensor_abcd : List Sig := [
  ⟨[n_matrix_AB], [n_matrix_AB], false, false, []⟩]

/-- hf_response.py:234 -/
def s_self___check_op : List Sig := [
  ⟨[n_op], [n_op], false, false, []⟩]

/-- hf_response.py:142 -/
def s_self__compute_chi0_abcd : List Sig := [
  ⟨[], [], false, false, []⟩]

/-- hf_response.py:292 -/
def s_self___check_op' : List Sig := [
  ⟨[n_op], [n_op], false, false, []⟩]

/-- hf_response.py:317 -/
def s_self_extract_dens_dens : List Sig := [
  ⟨[n_chi_abcd], [n_chi_abcd], false, false, []⟩]

/-- hf_response.py:96 -/
def s_self__compute_chi0_ab : List Sig := [
  ⟨[], [], false, false, []⟩]

/-- rpa_tensor.py:46 -/
def s_fundamental_operators_from_gf_struct : List Sig := [
  ⟨[n_gf_struct], [n_gf_struct], false, false, []⟩]

/-- OperatorUtils.py:347 -/
def s_is_operator_composed_of_only_fundamental_operators : List Sig := [
  ⟨[n_op, n_fundamental_operators], [n_op, n_fundamental_operators], false, false, []⟩]

/-- numpy_compat.py:56 -/
def s_np_eigvalsh : List Sig := [
  ⟨[n_arr], [n_arr], false, false, []⟩]

/-- hf_solver.py:174 -/
def s_self_update_momentum_density_matrix : List Sig := [
  ⟨[], [], false, false, []⟩]

/-- hf_solver.py:205 -/
def s_self_update_kinetic_energy : List Sig := [
  ⟨[], [], false, false, []⟩]

/-- hf_solver.py:214 -/
def s_self_update_interaction_energy : List Sig := [
  ⟨[], [], false, false, []⟩]

/-- hf_solver.py:194 -/
def s_self_update_non_int_free_energy : List Sig := [
  ⟨[], [], false, false, []⟩]

/-- hf_solver.py:485 -/
def s_self_vec2mat : List Sig := [
  ⟨[n_vec], [n_vec], false, false, []⟩]

/-- hf_solver.py:558 -/
def s_self_vec2mat' : List Sig := [
  ⟨[n_vec], [n_vec], false, false, []⟩]

/-- hf_solver.py:142 -/
def s_self_update_mean_field : List Sig := [
  ⟨[n_rho_ab], [n_rho_ab], false, false, []⟩]

/-- hf_solver.py:149 -/
def s_self_update_mean_field_dispersion : List Sig := [
  ⟨[], [], false, false, []⟩]

/-- hf_solver.py:185 -/
def s_self_update_density_matrix : List Sig := [
  ⟨[], [], false, false, []⟩]

/-- hf_solver.py:464 -/
def s_self_mat2vec : List Sig := [
  ⟨[n_mat], [n_mat], false, false, []⟩]

/-- hf_solver.py:553 -/
def s_self_mat2vec' : List Sig := [
  ⟨[n_mat], [n_mat], false, false, []⟩]

/-- hf_solver.py:153 -/
def s_self_update_chemical_potential : List Sig := [
  ⟨[n_N_target, n_mu0], [n_N_target], false, false, []⟩]

/-- hf_solver.py:251 -/
def s_self_solve_setup : List Sig := [
  ⟨[n_N_target, n_M0, n_mu0], [n_N_target], false, false, []⟩]

/-- hf_solver.py:222 -/
def s_self_update_total_energy : List Sig := [
  ⟨[], [], false, false, []⟩]

/-- hf_solver.py:234 -/
def s_self_density_matrix_step : List Sig := [
  ⟨[n_rho_vec, n_N_target], [n_rho_vec], false, false, []⟩]

/-- hf_solver.py:446 -/
def s_self___str__ : List Sig := [
  ⟨[], [], false, false, []⟩]

/-- hf_solver.py:505 -/
def s_self_logo'' : List Sig := [
  ⟨[], [], false, false, []⟩]

/-- hf_solver.py:563 -/
def s_self_logo''' : List Sig := [
  ⟨[], [], false, false, []⟩]

/-- lattice_utils.py:320 -/
def s_ek_tb_dispersion_on_bzmesh : List Sig := [
  ⟨[n_tb_lattice, n_bzmesh, n_bz], [n_tb_lattice, n_bzmesh, n_bz], false, false, []⟩]

/-- lattice_utils.py:122 -/
def s_strip_sigma : List Sig := [
  ⟨[n_nw, n_beta, n_sigma_in, n_debug], [n_nw, n_beta, n_sigma_in], false, false, []⟩]

/-- lattice_desc.py:1362 -/
def s_chi0_w0r_from_grt_PH : List Sig := [
  ⟨[n_g_tr], [n_g_tr], false, false, []⟩]

/-- lattice_desc.py:1360 -/
def s_chi0_wr_from_grt_PH : List Sig := [
  ⟨[n_g_tr, n_nw], [n_g_tr, n_nw], false, false, []⟩]

/-- lattice_utils.py:142 -/
def s_bubble_setup : List Sig := [
  ⟨[n_beta, n_mu, n_tb_lattice, n_nk, n_nw, n_sigma_w], [n_beta, n_mu, n_tb_lattice, n_nk, n_nw], false, false, []⟩]

/-- lattice_utils.py:335 -/
def s_get_relative_k_from_absolute : List Sig := [
  ⟨[n_k_vec, n_units], [n_k_vec, n_units], false, false, []⟩]

/-- lattice_utils.py:340 -/
def s_get_kidx_from_k_vec_relative : List Sig := [
  ⟨[n_k_vec_rel, n_nk], [n_k_vec_rel, n_nk], false, false, []⟩]

/-- lattice_utils.py:345 -/
def s_get_k_components_from_k_vec : List Sig := [
  ⟨[n_k_vec, n_nk], [n_k_vec, n_nk], false, false, []⟩]

/-- lattice_utils.py:440 -/
def s_extend_data_on_boundary : List Sig := [
  ⟨[n_values, n_nk], [n_values, n_nk], false, false, []⟩]

/-- lattice_utils.py:471 -/
def s_k_space_path : List Sig := [
  ⟨[n_paths, n_num, n_bz, n_relative_coordinates], [n_paths], false, false, []⟩]

/-- lattice_utils.py:509 -/
def s_gf_tensor_to_matrix : List Sig := [
  ⟨[n_g], [n_g], false, false, []⟩]

/-- lattice_desc.py:593, lattice_desc.py:595 -/
def s_dlr_on_imfreq : List Sig := [
  ⟨[n_g_c, n_wmesh], [n_g_c, n_wmesh], false, false, []⟩,
  ⟨[n_chi_c, n_wmesh], [n_chi_c, n_wmesh], false, false, []⟩]

/-- lattice_utils.py:521 -/
def s_gf_matrix_to_tensor : List Sig := [
  ⟨[n_g_mat, n_target_shape], [n_g_mat, n_target_shape], false, false, []⟩]

/-- numpy_compat.py:36 -/
def s_np_inv : List Sig := [
  ⟨[n_A], [n_A], false, false, []⟩]

/-- matrix_rpa.py:145 -/
def s_tensor_to_matrix : List Sig := [
  ⟨[n_tensor], [n_tensor], false, false, []⟩]

/-- matrix_rpa.py:194 -/
def s_matrix_rpa : List Sig := [
  ⟨[n_chi0_matrix, n_u_matrix], [n_chi0_matrix, n_u_matrix], false, false, []⟩]

/-- matrix_rpa.py:169 -/
def s_matrix_to_tensor : List Sig := [
  ⟨[n_matrix], [n_matrix], false, false, []⟩]

/-- numpy_compat.py:19 -/
def s_is_numpy_newer_than : List Sig := [
  ⟨[n_version], [n_version], false, false, []⟩]

/-- numpy_compat.py:22 -/
def s_np_linalg_func : List Sig := [
  ⟨[n_arr, n_func, n_version], [n_arr, n_func], false, false, []⟩]

/-- rpa_tensor.py:87 -/
def s_kanamori_charge_and_spin_quartic_interaction_tensors : List Sig := [
  ⟨[n_norb, n_U, n_Up, n_J, n_Jp], [n_norb, n_U, n_Up, n_J, n_Jp], false, false, []⟩]

/-- rpa_tensor.py:175 -/
def s_quartic_tensor_from_charge_and_spin : List Sig := [
  ⟨[n_U_c, n_U_s], [n_U_c, n_U_s], false, false, []⟩]

/-- symmetries.py:119 -/
def s__split_frequency : List Sig := [
  ⟨[n_gf], [n_gf], false, false, []⟩]

/-- symmetries.py:100 -/
def s__average_halfs : List Sig := [
  ⟨[n_half_1, n_half_2], [n_half_1, n_half_2], false, false, []⟩]

/-- symmetries.py:193 -/
def s__invert_momentum : List Sig := [
  ⟨[n_momentum, n_momentum_mesh], [n_momentum, n_momentum_mesh], false, false, []⟩]

/-- symmetries.py:217 -/
def s__split_momentum : List Sig := [
  ⟨[n_gf], [n_gf], false, false, []⟩]

/-- symmetries.py:105 -/
def s__overall_sign : List Sig := [
  ⟨[n_signs], [n_signs], false, false, []⟩]

/-- symmetries.py:322 -/
def s__split_orbital_triangle : List Sig := [
  ⟨[n_gf], [n_gf], false, false, []⟩]

/-- symmetries.py:353 -/
def s__split_orbital_diagonal : List Sig := [
  ⟨[n_gf], [n_gf], false, false, []⟩]

/-- lattice_desc.py:547, lattice_desc.py:570 -/
def s_solve_rpa_PH : List Sig := [
  ⟨[n_chi0, n_U], [n_chi0, n_U], false, false, []⟩,
  ⟨[n_chi0, n_U], [n_chi0, n_U], false, false, []⟩]

/-- lattice_desc.py:1280 -/
def s_construct_phi_wk : List Sig := [
  ⟨[n_chi, n_U], [n_chi, n_U], false, false, []⟩]

/-- eliashberg.py:443 -/
def s_construct_gamma_singlet_rpa : List Sig := [
  ⟨[n_U_d, n_U_m, n_phi_d_wk, n_phi_m_wk], [n_U_d, n_U_m, n_phi_d_wk, n_phi_m_wk], false, false, []⟩]

/-- vasp_crpa_parsers.py:11 -/
def s_read_vasp_crpa_vq_to_ndarray : List Sig := [
  ⟨[n_path, n_prefix, n_verbose, n_orbsub], [n_path, n_prefix], false, false, []⟩]

/-- vasp_crpa_parsers.py:72 -/
def s_convert_from_ndarray_to_triqs : List Sig := [
  ⟨[n_U_Q, n_Q, n_units, n_orbital_positions, n_kpts], [n_U_Q, n_Q, n_units, n_orbital_positions, n_kpts], false, false, []⟩]

/-- the calls in OperatorUtils.py -/
def sites_OperatorUtils : List Site := [
  ⟨90, s_op_is_fundamental, 1, []⟩, -- op_is_fundamental
  ⟨102, s_op_serialize_fundamental, 1, []⟩, -- op_serialize_fundamental
  ⟨117, s_get_operator_index_map, 1, []⟩, -- get_operator_index_map
  ⟨173, s_quartic_permutation_symmetrize, 1, []⟩, -- quartic_permutation_symmetrize
  ⟨179, s_quartic_conjugation_symmetrize, 1, []⟩, -- quartic_conjugation_symmetrize
  ⟨187, s_quartic_pauli_symmetrize, 1, []⟩, -- quartic_pauli_symmetrize
  ⟨197, s_get_operator_index_map, 1, []⟩, -- get_operator_index_map
  ⟨237, s_get_operator_index_map, 1, []⟩, -- get_operator_index_map
  ⟨262, s_get_operator_index_map, 1, []⟩, -- get_operator_index_map
  ⟨284, s_op_serialize_fundamental, 1, []⟩, -- op_serialize_fundamental
  ⟨318, s_get_operator_index_map, 1, [n_include_dag]⟩] -- get_operator_index_map

/-- the calls in ParameterCollection.py -/
def sites_ParameterCollection : List Site := [
  ⟨305, s_ParameterCollections, 1, []⟩, -- ParameterCollections
  ⟨92, s_self_copy, 0, []⟩, -- self.copy
  ⟨112, s_self_items, 0, []⟩, -- self.items
  ⟨121, s_self_dict, 0, []⟩, -- self.dict
  ⟨125, s_self_dict, 0, []⟩, -- self.dict
  ⟨99, s_self_dict, 0, []⟩, -- self.dict
  ⟨130, s_self_dict, 0, []⟩, -- self.dict
  ⟨114, s_self_dict, 0, []⟩, -- self.dict
  ⟨212, s_self_getattr_from_objects, 1, []⟩, -- self.getattr_from_objects
  ⟨214, s_self_set_sorted_order, 1, []⟩, -- self.set_sorted_order
  ⟨224, s_self_getattr_from_objects, 1, []⟩] -- self.getattr_from_objects

/-- the calls in analytic_hubbard_atom.py -/
def sites_analytic_hubbard_atom : List Site := [
  ⟨92, s_ParameterCollection, 0, []⟩, -- ParameterCollection
  ⟨95, s_single_particle_greens_function, 0, [n_beta, n_U, n_nw]⟩, -- single_particle_greens_function
  ⟨100, s_block_iw_AB_to_matrix_valued, 1, []⟩, -- block_iw_AB_to_matrix_valued
  ⟨102, s_chi_ph_magnetic, 0, [n_beta, n_U, n_nw, n_nwf]⟩, -- chi_ph_magnetic
  ⟨103, s_chi0_from_gg2_PH, 2, []⟩, -- chi0_from_gg2_PH
  ⟨106, s_inverse_PH, 1, []⟩, -- inverse_PH
  ⟨106, s_inverse_PH, 1, []⟩, -- inverse_PH
  ⟨109, s_gamma_ph_magnetic, 0, [n_beta, n_U, n_nw, n_nwf]⟩] -- gamma_ph_magnetic

/-- the calls in ase_timing.py -/
def sites_ase_timing : List Site := [
  ⟨115, s_self_start, 1, []⟩, -- self.start
  ⟨122, s_self_stop, 0, []⟩, -- self.stop
  ⟨130, s_self_stop, 0, []⟩, -- self.stop
  ⟨176, s_self_start, 1, []⟩] -- self.start

/-- the calls in bse.py -/
def sites_bse : List Site := [
  ⟨80, s_chi_from_gg2_PH, 2, []⟩, -- chi_from_gg2_PH
  ⟨81, s_chi0_from_gg2_PH, 2, []⟩, -- chi0_from_gg2_PH
  ⟨83, s_inverse_PH, 1, []⟩, -- inverse_PH
  ⟨83, s_inverse_PH, 1, []⟩, -- inverse_PH
  ⟨117, s_inverse_PH, 1, []⟩, -- inverse_PH
  ⟨117, s_inverse_PH, 1, []⟩, -- inverse_PH
  ⟨194, s_fourier_wk_to_wr, 1, []⟩, -- fourier_wk_to_wr
  ⟨203, s_chi0r_from_gr_PH, 0, [n_nw, n_nn, n_g_nr]⟩, -- chi0r_from_gr_PH
  ⟨228, s_chi0q_from_chi0r, 1, []⟩, -- chi0q_from_chi0r
  ⟨241, s_ParameterCollection, 0, []⟩, -- ParameterCollection
  ⟨292, s_fourier_wk_to_wr, 1, []⟩, -- fourier_wk_to_wr
  ⟨295, s_chi0_nr_from_gr_PH_at_specific_w, 0, [n_nw_index, n_nn, n_g_nr]⟩, -- chi0_nr_from_gr_PH_at_specific_w
  ⟨300, s_add_fake_bosonic_mesh, 1, []⟩, -- add_fake_bosonic_mesh
  ⟨303, s_chi0q_from_chi0r, 1, []⟩, -- chi0q_from_chi0r
  ⟨349, s_tprf_banner, 0, []⟩, -- tprf_banner
  ⟨358, s_imtime_bubble_chi0_wk, 1, [n_nw]⟩, -- imtime_bubble_chi0_wk
  ⟨364, s_get_chi0_wnk, 1, [n_nw, n_nwf]⟩, -- get_chi0_wnk
  ⟨371, s_chi0q_sum_nu, 1, []⟩, -- chi0q_sum_nu
  ⟨392, s_chiq_sum_nu_from_chi0q_and_gamma_PH, 2, []⟩, -- chiq_sum_nu_from_chi0q_and_gamma_PH
  ⟨443, s_add_fake_bosonic_mesh, 1, []⟩, -- add_fake_bosonic_mesh
  ⟨456, s_tprf_banner, 0, []⟩, -- tprf_banner
  ⟨466, s_imtime_bubble_chi0_wk, 1, [n_nw, n_save_memory]⟩, -- imtime_bubble_chi0_wk
  ⟨469, s_add_fake_bosonic_mesh, 1, [n_beta]⟩, -- add_fake_bosonic_mesh
  ⟨471, s_get_chi0_nk_at_specific_w, 1, [n_nw_index, n_nwf]⟩, -- get_chi0_nk_at_specific_w
  ⟨473, s_add_fake_bosonic_mesh, 1, []⟩, -- add_fake_bosonic_mesh
  ⟨476, s_chi0q_sum_nu, 1, []⟩, -- chi0q_sum_nu
  ⟨493, s_chiq_sum_nu_from_chi0q_and_gamma_PH, 2, []⟩, -- chiq_sum_nu_from_chi0q_and_gamma_PH
  ⟨530, s_tprf_banner, 0, []⟩, -- tprf_banner
  ⟨543, s_chiq_sum_nu_from_g_wk_and_gamma_PH, 2, [n_tail_corr_nwf]⟩, -- chiq_sum_nu_from_g_wk_and_gamma_PH
  ⟨561, s_tprf_banner, 0, []⟩, -- tprf_banner
  ⟨574, s_chiq_sum_nu_from_e_k_sigma_w_and_gamma_PH, 4, [n_tail_corr_nwf]⟩] -- chiq_sum_nu_from_e_k_sigma_w_and_gamma_PH

/-- the calls in dbse.py -/
def sites_dbse : List Site := [
  ⟨65, s_chi_from_gg2_PH, 2, []⟩, -- chi_from_gg2_PH
  ⟨66, s_chi0_from_gg2_PH, 2, []⟩, -- chi0_from_gg2_PH
  ⟨70, s_inverse_PH, 1, []⟩, -- inverse_PH
  ⟨71, s_product_PH, 2, []⟩, -- product_PH
  ⟨71, s_product_PH, 2, []⟩, -- product_PH
  ⟨117, s_fourier_wk_to_wr, 1, []⟩, -- fourier_wk_to_wr
  ⟨121, s_chi0r_from_gr_PH, 0, [n_nw, n_nn, n_g_nr]⟩, -- chi0r_from_gr_PH
  ⟨126, s_chi0q_from_chi0r, 1, []⟩, -- chi0q_from_chi0r
  ⟨136, s_chiq_sum_nu_from_chi0q_and_gamma_and_L_wn_PH, 3, []⟩] -- chiq_sum_nu_from_chi0q_and_gamma_and_L_wn_PH

/-- the calls in eliashberg.py -/
def sites_eliashberg : List Site := [
  ⟨137, s_preprocess_gamma_for_fft, 2, []⟩, -- preprocess_gamma_for_fft
  ⟨176, s_semi_random_initial_delta, 1, []⟩, -- semi_random_initial_delta
  ⟨180, s_power_method_LR, 2, [n_tol]⟩, -- power_method_LR
  ⟨184, s_implicitly_restarted_arnoldi_method, 2, [n_k, n_tol]⟩, -- implicitly_restarted_arnoldi_method
  ⟨230, s_dynamic_and_constant_to_tr, 2, []⟩, -- dynamic_and_constant_to_tr
  ⟨238, s_split_into_dynamic_wk_and_constant_k, 1, []⟩, -- split_into_dynamic_wk_and_constant_k
  ⟨251, s_dynamic_and_constant_to_tr, 2, []⟩] -- dynamic_and_constant_to_tr

/-- the calls in fitdlr.py -/
def sites_fitdlr : List Site := [
  ⟨85, s_quadratic_matrix_from_operator, 2, []⟩, -- quadratic_matrix_from_operator
  ⟨86, s_get_rpa_tensor, 2, []⟩, -- get_rpa_tensor
  ⟨88, s_triqs_driver, 1, []⟩, -- triqs_driver
  ⟨90, s_constrained_lstsq_dlr_from_tau, 6, [n_symmetrizer, n_discontinuity, n_density, n_realvalued, n_ftol]⟩, -- constrained_lstsq_dlr_from_tau
  ⟨291, s_Symmetrizer, 2, []⟩, -- Symmetrizer
  ⟨446, s_unique_non_zero, 1, []⟩, -- unique_non_zero
  ⟨449, s_unique_non_zero, 1, []⟩, -- unique_non_zero
  ⟨452, s_unique_non_zero, 1, []⟩, -- unique_non_zero
  ⟨148, s_self___eval_T, 1, []⟩, -- self.__eval_T
  ⟨155, s_self_initial_guess_from_tau_lstsq, 3, []⟩, -- self.initial_guess_from_tau_lstsq
  ⟨158, s_self___eval_T, 1, []⟩] -- self.__eval_T

/-- the calls in gw.py -/
def sites_gw : List Site := [
  ⟨80, s_fourier_wk_to_wr, 1, []⟩, -- fourier_wk_to_wr
  ⟨81, s_fourier_wr_to_tr, 1, []⟩, -- fourier_wr_to_tr
  ⟨83, s_chi0_tr_from_grt_PH, 1, []⟩, -- chi0_tr_from_grt_PH
  ⟨85, s_chi_wr_from_chi_tr, 1, [n_nw]⟩, -- chi_wr_from_chi_tr
  ⟨87, s_chi_wk_from_chi_wr, 1, []⟩, -- chi_wk_from_chi_wr
  ⟨100, s_quartic_tensor_from_operator, 2, []⟩] -- quartic_tensor_from_operator

/-- the calls in gw_solver.py -/
def sites_gw_solver : List Site := [
  ⟨75, s_Timer, 0, []⟩, -- Timer
  ⟨109, s_timer, 1, []⟩, -- timer
  ⟨118, s_fourier_wk_to_wr, 1, []⟩, -- fourier_wk_to_wr
  ⟨119, s_fourier_wk_to_wr, 1, []⟩, -- fourier_wk_to_wr
  ⟨120, s_fourier_wk_to_wr, 1, []⟩, -- fourier_wk_to_wr
  ⟨121, s_chi_wr_from_chi_wk, 1, []⟩, -- chi_wr_from_chi_wk
  ⟨122, s_chi_wr_from_chi_wk, 1, []⟩, -- chi_wr_from_chi_wk
  ⟨130, s_chi_wr_from_chi_wk, 1, []⟩, -- chi_wr_from_chi_wk
  ⟨133, s_timer, 1, []⟩, -- timer
  ⟨143, s_ParameterCollection, 0, [n_mu, n_mu0, n_e_k, n_V_k, n_g0_fk, n_g_fk, n_sigma_hartree_k, n_sigma_fock_k]⟩, -- ParameterCollection
  ⟨183, s_timer, 1, []⟩, -- timer
  ⟨185, s_rho_k_from_g_wk, 1, []⟩, -- rho_k_from_g_wk
  ⟨188, s_timer, 1, []⟩, -- timer
  ⟨195, s_timer, 1, []⟩, -- timer
  ⟨197, s_hartree_sigma, 2, []⟩, -- hartree_sigma
  ⟨200, s_timer, 1, []⟩, -- timer
  ⟨202, s_fock_sigma, 2, []⟩, -- fock_sigma
  ⟨205, s_timer, 1, []⟩, -- timer
  ⟨208, s_fourier_wk_to_wr, 1, []⟩, -- fourier_wk_to_wr
  ⟨209, s_fourier_wr_to_tr, 1, []⟩, -- fourier_wr_to_tr
  ⟨212, s_chi_wr_from_chi_wk, 1, []⟩, -- chi_wr_from_chi_wk
  ⟨213, s_chi_tr_from_chi_wr, 1, []⟩, -- chi_tr_from_chi_wr
  ⟨216, s_gw_dynamic_sigma, 2, []⟩, -- gw_dynamic_sigma
  ⟨220, s_fourier_tr_to_wr, 1, []⟩, -- fourier_tr_to_wr
  ⟨222, s_fourier_wr_to_wk, 1, []⟩, -- fourier_wr_to_wk
  ⟨228, s_timer, 1, []⟩, -- timer
  ⟨230, s_imtime_bubble_chi0_wk, 1, [n_nw, n_verbose]⟩, -- imtime_bubble_chi0_wk
  ⟨235, s_timer, 1, []⟩, -- timer
  ⟨238, s_dynamical_screened_interaction_W, 2, []⟩, -- dynamical_screened_interaction_W
  ⟨240, s_dynamical_screened_interaction_W, 2, []⟩, -- dynamical_screened_interaction_W
  ⟨244, s_timer, 1, []⟩, -- timer
  ⟨246, s_generalized_susceptibility, 2, []⟩, -- generalized_susceptibility
  ⟨250, s_timer, 1, []⟩, -- timer
  ⟨252, s_split_into_dynamic_wk_and_constant_k, 1, []⟩, -- split_into_dynamic_wk_and_constant_k
  ⟨256, s_timer, 1, []⟩, -- timer
  ⟨283, s_lattice_dyson_g_wk, 3, []⟩, -- lattice_dyson_g_wk
  ⟨285, s_lattice_dyson_g0_wk, 0, [n_mu, n_e_k, n_mesh]⟩, -- lattice_dyson_g0_wk
  ⟨97, s_self_dyson_equation, 2, [n_wmesh, n_N_fix]⟩, -- self.dyson_equation
  ⟨190, s_self_calc_rho_k, 1, []⟩, -- self.calc_rho_k
  ⟨364, s_self_calc_rho_r, 1, []⟩, -- self.calc_rho_r
  ⟨365, s_self_calc_rho_loc, 1, []⟩, -- self.calc_rho_loc
  ⟨366, s_self_calc_total_density, 1, []⟩, -- self.calc_total_density
  ⟨368, s_self_calc_rho_k, 1, []⟩, -- self.calc_rho_k
  ⟨260, s_self__dyson_equation_dispatch, 2, [n_sigma_wk, n_wmesh]⟩, -- self._dyson_equation_dispatch
  ⟨275, s_self__dyson_equation_dispatch, 2, [n_sigma_wk, n_wmesh]⟩, -- self._dyson_equation_dispatch
  ⟨323, s_self_calc_rho_r, 1, []⟩, -- self.calc_rho_r
  ⟨351, s_self_dyson_equation, 2, [n_sigma_wk, n_N_fix]⟩, -- self.dyson_equation
  ⟨381, s_self_susceptibiltiy, 2, []⟩, -- self.susceptibiltiy
  ⟨78, s_self_logo, 0, []⟩, -- self.logo
  ⟨265, s_self__dyson_equation_dispatch, 2, [n_sigma_wk, n_wmesh]⟩, -- self._dyson_equation_dispatch
  ⟨266, s_self_calc_rho_r, 1, []⟩, -- self.calc_rho_r
  ⟨267, s_self_calc_rho_loc, 1, []⟩, -- self.calc_rho_loc
  ⟨268, s_self_calc_total_density, 1, []⟩, -- self.calc_total_density
  ⟨327, s_self_hartree_sigma, 2, []⟩, -- self.hartree_sigma
  ⟨331, s_self_fock_sigma, 2, []⟩, -- self.fock_sigma
  ⟨336, s_self_polarization, 1, []⟩, -- self.polarization
  ⟨339, s_self_screened_interaction, 2, [n_spinless]⟩, -- self.screened_interaction
  ⟨347, s_self_gw_dynamic_sigma, 2, []⟩] -- self.gw_dynamic_sigma

/-- the calls in hf_response.py -/
def sites_hf_response : List Site := [
  ⟨83, s_np_eigh, 1, []⟩, -- np_eigh
  ⟨84, s_np_eigh, 1, []⟩, -- np_eigh
  ⟨70, s_self__compute_drho_k_dop, 1, []⟩, -- self._compute_drho_k_dop
  ⟨70, s_self__compute_drho_k_dop, 1, []⟩, -- self._compute_drho_k_dop of HartreeFockResponse
  ⟨70, s_self__compute_drho_k_dop, 1, []⟩, -- self._compute_drho_k_dop of HartreeResponse
  ⟨144, s_self__compute_chi0_kabcd, 0, []⟩, -- self._compute_chi0_kabcd
  ⟨144, s_self__compute_chi0_kabcd, 0, []⟩, -- self._compute_chi0_kabcd of HartreeFockResponse
  ⟨144, s_self__compute_chi0_kabcd, 0, []⟩, -- self._compute_chi0_kabcd of HartreeResponse
  ⟨152, s_self__compute_R_kabcd, 0, [n_field_prefactor]⟩, -- self._compute_R_kabcd
  ⟨152, s_self__compute_R_kabcd, 0, [n_field_prefactor]⟩, -- self._compute_R_kabcd of HartreeFockResponse
  ⟨152, s_self__compute_R_kabcd, 0, [n_field_prefactor]⟩, -- self._compute_R_kabcd of HartreeResponse
  ⟨153, s_self__compute_R_kabcd, 0, [n_field_prefactor]⟩, -- self._compute_R_kabcd
  ⟨153, s_self__compute_R_kabcd, 0, [n_field_prefactor]⟩, -- self._compute_R_kabcd of HartreeFockResponse
  ⟨153, s_self__compute_R_kabcd, 0, [n_field_prefactor]⟩, -- self._compute_R_kabcd of HartreeResponse
  ⟨42, s_self_logo', 0, []⟩, -- self.logo
  ⟨42, s_self_logo', 0, []⟩, -- self.logo of HartreeFockResponse
  ⟨42, s_self_logo', 0, []⟩, -- self.logo of HartreeResponse
  ⟨120, s_self__compute_drho_dop, 1, []⟩, -- self._compute_drho_dop
  ⟨120, s_self__compute_drho_dop, 1, []⟩, -- self._compute_drho_dop of HartreeFockResponse
  ⟨120, s_self__compute_drho_dop, 1, []⟩, -- self._compute_drho_dop of HartreeResponse
  ⟨136, s_self__compute_drho_k_dop, 1, []⟩, -- self._compute_drho_k_dop
  ⟨136, s_self__compute_drho_k_dop, 1, []⟩, -- self._compute_drho_k_dop of HartreeFockResponse
  ⟨136, s_self__compute_drho_k_dop, 1, []⟩, -- self._compute_drho_k_dop of HartreeResponse
  ⟨104, s_self__compute_drho_dop, 1, []⟩, -- self._compute_drho_dop
  ⟨104, s_self__compute_drho_dop, 1, []⟩, -- self._compute_drho_dop of HartreeFockResponse
  ⟨104, s_self__compute_drho_dop, 1, []⟩, -- self._compute_drho_dop of HartreeResponse
  ⟨201, s_self__to_matrix_AB, 1, []⟩, -- self._to_matrix_AB
  ⟨202, s_self__to_matrix_AB, 1, []⟩, -- self._to_matrix_AB
  ⟨206, s_self__to_tensor_abcd, 1, []⟩, -- self._to_tensor_abcd
  ⟨207, s_self__to_tensor_abcd, 1, []⟩, -- self._to_tensor_abcd
  ⟨215, s_self__to_matrix_AB, 1, []⟩, -- self._to_matrix_AB
  ⟨216, s_self__to_matrix_AB, 1, []⟩, -- self._to_matrix_AB
  ⟨239, s_self___check_op, 1, []⟩, -- self.__check_op
  ⟨240, s_self___check_op, 1, []⟩, -- self.__check_op
  ⟨248, s_self___check_op, 1, []⟩, -- self.__check_op
  ⟨249, s_self___check_op, 1, []⟩, -- self.__check_op
  ⟨202, s_self__compute_chi0_abcd, 0, []⟩, -- self._compute_chi0_abcd
  ⟨301, s_self___check_op', 1, []⟩, -- self.__check_op
  ⟨302, s_self___check_op', 1, []⟩, -- self.__check_op
  ⟨310, s_self___check_op', 1, []⟩, -- self.__check_op
  ⟨311, s_self___check_op', 1, []⟩, -- self.__check_op
  ⟨285, s_self_extract_dens_dens, 1, []⟩, -- self.extract_dens_dens
  ⟨286, s_self__compute_chi0_ab, 0, []⟩] -- self._compute_chi0_ab

/-- the calls in hf_solver.py -/
def sites_hf_solver : List Site := [
  ⟨125, s_fundamental_operators_from_gf_struct, 1, []⟩, -- fundamental_operators_from_gf_struct
  ⟨132, s_is_operator_composed_of_only_fundamental_operators, 2, []⟩, -- is_operator_composed_of_only_fundamental_operators
  ⟨136, s_get_rpa_tensor, 2, []⟩, -- get_rpa_tensor
  ⟨158, s_np_eigvalsh, 1, []⟩, -- np_eigvalsh
  ⟨176, s_np_eigh, 1, []⟩, -- np_eigh
  ⟨196, s_np_eigvalsh, 1, []⟩, -- np_eigvalsh
  ⟨187, s_self_update_momentum_density_matrix, 0, []⟩, -- self.update_momentum_density_matrix
  ⟨187, s_self_update_momentum_density_matrix, 0, []⟩, -- self.update_momentum_density_matrix of HartreeSolver
  ⟨207, s_self_update_momentum_density_matrix, 0, []⟩, -- self.update_momentum_density_matrix
  ⟨207, s_self_update_momentum_density_matrix, 0, []⟩, -- self.update_momentum_density_matrix of HartreeSolver
  ⟨224, s_self_update_kinetic_energy, 0, []⟩, -- self.update_kinetic_energy
  ⟨224, s_self_update_kinetic_energy, 0, []⟩, -- self.update_kinetic_energy of HartreeSolver
  ⟨225, s_self_update_interaction_energy, 0, []⟩, -- self.update_interaction_energy
  ⟨225, s_self_update_interaction_energy, 0, []⟩, -- self.update_interaction_energy of HartreeSolver
  ⟨228, s_self_update_non_int_free_energy, 0, []⟩, -- self.update_non_int_free_energy
  ⟨228, s_self_update_non_int_free_energy, 0, []⟩, -- self.update_non_int_free_energy of HartreeSolver
  ⟨236, s_self_vec2mat, 1, []⟩, -- self.vec2mat
  ⟨236, s_self_vec2mat', 1, []⟩, -- self.vec2mat of HartreeSolver
  ⟨238, s_self_update_mean_field, 1, []⟩, -- self.update_mean_field
  ⟨238, s_self_update_mean_field, 1, []⟩, -- self.update_mean_field of HartreeSolver
  ⟨239, s_self_update_mean_field_dispersion, 0, []⟩, -- self.update_mean_field_dispersion
  ⟨239, s_self_update_mean_field_dispersion, 0, []⟩, -- self.update_mean_field_dispersion of HartreeSolver
  ⟨244, s_self_update_density_matrix, 0, []⟩, -- self.update_density_matrix
  ⟨244, s_self_update_density_matrix, 0, []⟩, -- self.update_density_matrix of HartreeSolver
  ⟨246, s_self_mat2vec, 1, []⟩, -- self.mat2vec
  ⟨246, s_self_mat2vec', 1, []⟩, -- self.mat2vec of HartreeSolver
  ⟨266, s_self_update_mean_field_dispersion, 0, []⟩, -- self.update_mean_field_dispersion
  ⟨266, s_self_update_mean_field_dispersion, 0, []⟩, -- self.update_mean_field_dispersion of HartreeSolver
  ⟨267, s_self_update_chemical_potential, 1, []⟩, -- self.update_chemical_potential
  ⟨267, s_self_update_chemical_potential, 1, []⟩, -- self.update_chemical_potential of HartreeSolver
  ⟨268, s_self_update_density_matrix, 0, []⟩, -- self.update_density_matrix
  ⟨268, s_self_update_density_matrix, 0, []⟩, -- self.update_density_matrix of HartreeSolver
  ⟨270, s_self_mat2vec, 1, []⟩, -- self.mat2vec
  ⟨270, s_self_mat2vec', 1, []⟩, -- self.mat2vec of HartreeSolver
  ⟨320, s_self_solve_setup, 3, []⟩, -- self.solve_setup
  ⟨320, s_self_solve_setup, 3, []⟩, -- self.solve_setup of HartreeSolver
  ⟨342, s_self_update_total_energy, 0, []⟩, -- self.update_total_energy
  ⟨342, s_self_update_total_energy, 0, []⟩, -- self.update_total_energy of HartreeSolver
  ⟨370, s_self_solve_setup, 3, []⟩, -- self.solve_setup
  ⟨370, s_self_solve_setup, 3, []⟩, -- self.solve_setup of HartreeSolver
  ⟨378, s_self_update_total_energy, 0, []⟩, -- self.update_total_energy
  ⟨378, s_self_update_total_energy, 0, []⟩, -- self.update_total_energy of HartreeSolver
  ⟨381, s_self_density_matrix_step, 1, []⟩, -- self.density_matrix_step
  ⟨381, s_self_density_matrix_step, 1, []⟩, -- self.density_matrix_step of HartreeSolver
  ⟨410, s_self_update_mean_field_dispersion, 0, []⟩, -- self.update_mean_field_dispersion
  ⟨410, s_self_update_mean_field_dispersion, 0, []⟩, -- self.update_mean_field_dispersion of HartreeSolver
  ⟨411, s_self_update_density_matrix, 0, []⟩, -- self.update_density_matrix
  ⟨411, s_self_update_density_matrix, 0, []⟩, -- self.update_density_matrix of HartreeSolver
  ⟨412, s_self_mat2vec, 1, []⟩, -- self.mat2vec
  ⟨412, s_self_mat2vec', 1, []⟩, -- self.mat2vec of HartreeSolver
  ⟨420, s_self_update_total_energy, 0, []⟩, -- self.update_total_energy
  ⟨420, s_self_update_total_energy, 0, []⟩, -- self.update_total_energy of HartreeSolver
  ⟨423, s_self_density_matrix_step, 1, []⟩, -- self.density_matrix_step
  ⟨423, s_self_density_matrix_step, 1, []⟩, -- self.density_matrix_step of HartreeSolver
  ⟨242, s_self_update_chemical_potential, 1, [n_mu0]⟩, -- self.update_chemical_potential
  ⟨242, s_self_update_chemical_potential, 1, [n_mu0]⟩, -- self.update_chemical_potential of HartreeSolver
  ⟨256, s_self_update_chemical_potential, 1, [n_mu0]⟩, -- self.update_chemical_potential
  ⟨256, s_self_update_chemical_potential, 1, [n_mu0]⟩, -- self.update_chemical_potential of HartreeSolver
  ⟨329, s_self_density_matrix_step, 2, []⟩, -- self.density_matrix_step
  ⟨329, s_self_density_matrix_step, 2, []⟩, -- self.density_matrix_step of HartreeSolver
  ⟨343, s_self___str__, 0, []⟩, -- self.__str__
  ⟨343, s_self___str__, 0, []⟩, -- self.__str__ of HartreeSolver
  ⟨373, s_self_density_matrix_step, 2, []⟩, -- self.density_matrix_step
  ⟨373, s_self_density_matrix_step, 2, []⟩, -- self.density_matrix_step of HartreeSolver
  ⟨379, s_self___str__, 0, []⟩, -- self.__str__
  ⟨379, s_self___str__, 0, []⟩, -- self.__str__ of HartreeSolver
  ⟨415, s_self_density_matrix_step, 1, []⟩, -- self.density_matrix_step
  ⟨415, s_self_density_matrix_step, 1, []⟩, -- self.density_matrix_step of HartreeSolver
  ⟨421, s_self___str__, 0, []⟩, -- self.__str__
  ⟨421, s_self___str__, 0, []⟩, -- self.__str__ of HartreeSolver
  ⟨88, s_self_logo'', 0, []⟩, -- self.logo
  ⟨88, s_self_logo''', 0, []⟩] -- self.logo of HartreeSolver

/-- the calls in lattice_utils.py -/
def sites_lattice_utils : List Site := [
  ⟨144, s_tprf_banner, 0, []⟩, -- tprf_banner
  ⟨166, s_ek_tb_dispersion_on_bzmesh, 3, []⟩, -- ek_tb_dispersion_on_bzmesh
  ⟨171, s_lattice_dyson_g0_wk, 0, [n_mu, n_e_k, n_mesh]⟩, -- lattice_dyson_g0_wk
  ⟨174, s_strip_sigma, 3, []⟩, -- strip_sigma
  ⟨175, s_lattice_dyson_g_wk, 0, [n_mu, n_e_k, n_sigma_w]⟩, -- lattice_dyson_g_wk
  ⟨178, s_fourier_wk_to_wr, 1, []⟩, -- fourier_wk_to_wr
  ⟨182, s_fourier_wr_to_tr, 1, []⟩, -- fourier_wr_to_tr
  ⟨232, s_tprf_banner, 0, []⟩, -- tprf_banner
  ⟨241, s_fourier_wk_to_wr, 1, []⟩, -- fourier_wk_to_wr
  ⟨245, s_fourier_wr_to_tr, 1, []⟩, -- fourier_wr_to_tr
  ⟨250, s_chi0_w0r_from_grt_PH, 1, []⟩, -- chi0_w0r_from_grt_PH
  ⟨255, s_chi0_tr_from_grt_PH, 1, []⟩, -- chi0_tr_from_grt_PH
  ⟨259, s_chi_wr_from_chi_tr, 1, [n_nw]⟩, -- chi_wr_from_chi_tr
  ⟨262, s_chi0_wr_from_grt_PH, 1, [n_nw]⟩, -- chi0_wr_from_grt_PH
  ⟨266, s_chi_wk_from_chi_wr, 1, []⟩, -- chi_wk_from_chi_wr
  ⟨302, s_bubble_setup, 5, []⟩, -- bubble_setup
  ⟨304, s_bubble_setup, 5, [n_sigma_w]⟩, -- bubble_setup
  ⟨307, s_chi0_w0r_from_grt_PH, 1, []⟩, -- chi0_w0r_from_grt_PH
  ⟨311, s_chi_wk_from_chi_wr, 1, []⟩, -- chi_wk_from_chi_wr
  ⟨328, s_get_relative_k_from_absolute, 2, []⟩, -- get_relative_k_from_absolute
  ⟨411, s_get_relative_k_from_absolute, 2, []⟩, -- get_relative_k_from_absolute
  ⟨412, s_get_kidx_from_k_vec_relative, 2, []⟩, -- get_kidx_from_k_vec_relative
  ⟨414, s_get_k_components_from_k_vec, 2, []⟩, -- get_k_components_from_k_vec
  ⟨418, s_extend_data_on_boundary, 2, []⟩, -- extend_data_on_boundary
  ⟨466, s_get_k_components_from_k_vec, 2, []⟩, -- get_k_components_from_k_vec
  ⟨504, s_k_space_path, 1, [n_num, n_bz, n_relative_coordinates]⟩, -- k_space_path
  ⟨572, s_gf_tensor_to_matrix, 1, []⟩, -- gf_tensor_to_matrix
  ⟨573, s_gf_tensor_to_matrix, 1, []⟩, -- gf_tensor_to_matrix
  ⟨578, s_dlr_on_imfreq, 2, []⟩, -- dlr_on_imfreq
  ⟨583, s_gf_matrix_to_tensor, 2, []⟩] -- gf_matrix_to_tensor

/-- the calls in matrix_rpa.py -/
def sites_matrix_rpa : List Site := [
  ⟨208, s_np_inv, 1, []⟩, -- np_inv
  ⟨227, s_tensor_to_matrix, 1, []⟩, -- tensor_to_matrix
  ⟨228, s_tensor_to_matrix, 1, []⟩, -- tensor_to_matrix
  ⟨230, s_matrix_rpa, 2, []⟩, -- matrix_rpa
  ⟨232, s_matrix_to_tensor, 1, []⟩, -- matrix_to_tensor
  ⟨249, s_tensor_to_matrix, 1, []⟩, -- tensor_to_matrix
  ⟨250, s_tensor_to_matrix, 1, []⟩, -- tensor_to_matrix
  ⟨253, s_matrix_rpa, 2, []⟩, -- matrix_rpa
  ⟨255, s_matrix_to_tensor, 1, []⟩] -- matrix_to_tensor

/-- the calls in numpy_compat.py -/
def sites_numpy_compat : List Site := [
  ⟨24, s_is_numpy_newer_than, 1, []⟩, -- is_numpy_newer_than
  ⟨37, s_np_linalg_func, 2, []⟩, -- np_linalg_func
  ⟨41, s_is_numpy_newer_than, 1, []⟩, -- is_numpy_newer_than
  ⟨58, s_is_numpy_newer_than, 1, []⟩] -- is_numpy_newer_than

/-- the calls in plotting_tools.py -/
def sites_plotting_tools : List Site := [
  ⟨50, s_k_space_path, 1, [n_bz]⟩] -- k_space_path

/-- the calls in rpa_tensor.py -/
def sites_rpa_tensor : List Site := [
  ⟨64, s_quartic_tensor_from_operator, 2, []⟩, -- quartic_tensor_from_operator
  ⟨65, s_quartic_permutation_symmetrize, 1, []⟩, -- quartic_permutation_symmetrize
  ⟨230, s_kanamori_charge_and_spin_quartic_interaction_tensors, 5, []⟩, -- kanamori_charge_and_spin_quartic_interaction_tensors
  ⟨231, s_quartic_tensor_from_charge_and_spin, 2, []⟩] -- quartic_tensor_from_charge_and_spin

/-- the calls in symmetries.py -/
def sites_symmetries : List Site := [
  ⟨159, s__split_frequency, 1, []⟩, -- _split_frequency
  ⟨181, s__split_frequency, 1, []⟩, -- _split_frequency
  ⟨182, s__average_halfs, 2, []⟩, -- _average_halfs
  ⟨238, s__invert_momentum, 2, []⟩, -- _invert_momentum
  ⟨267, s__split_momentum, 1, []⟩, -- _split_momentum
  ⟨288, s__overall_sign, 1, []⟩, -- _overall_sign
  ⟨304, s__split_momentum, 1, []⟩, -- _split_momentum
  ⟨311, s__average_halfs, 2, []⟩, -- _average_halfs
  ⟨392, s__split_orbital_triangle, 1, []⟩, -- _split_orbital_triangle
  ⟨400, s__split_orbital_diagonal, 1, []⟩, -- _split_orbital_diagonal
  ⟨404, s__overall_sign, 1, []⟩, -- _overall_sign
  ⟨414, s__split_orbital_triangle, 1, []⟩, -- _split_orbital_triangle
  ⟨415, s__average_halfs, 2, []⟩, -- _average_halfs
  ⟨425, s__split_orbital_diagonal, 1, []⟩] -- _split_orbital_diagonal

/-- the calls in utilities.py -/
def sites_utilities : List Site := [
  ⟨183, s_lattice_dyson_g0_wk, 0, [n_mu, n_e_k, n_mesh]⟩, -- lattice_dyson_g0_wk
  ⟨185, s_imtime_bubble_chi0_wk, 1, [n_nw]⟩, -- imtime_bubble_chi0_wk
  ⟨187, s_kanamori_charge_and_spin_quartic_interaction_tensors, 5, []⟩, -- kanamori_charge_and_spin_quartic_interaction_tensors
  ⟨191, s_solve_rpa_PH, 2, []⟩, -- solve_rpa_PH
  ⟨192, s_solve_rpa_PH, 2, []⟩, -- solve_rpa_PH
  ⟨194, s_construct_phi_wk, 2, []⟩, -- construct_phi_wk
  ⟨195, s_construct_phi_wk, 2, []⟩, -- construct_phi_wk
  ⟨197, s_construct_gamma_singlet_rpa, 4, []⟩, -- construct_gamma_singlet_rpa
  ⟨199, s_ParameterCollection, 0, [n_g0_wk, n_gamma, n_U_m, n_U_d, n_chi_m, n_chi_d]⟩, -- ParameterCollection
  ⟨217, s_lattice_dyson_g0_wk, 0, [n_mu, n_e_k, n_mesh]⟩] -- lattice_dyson_g0_wk

/-- the calls in vasp_crpa_parsers.py -/
def sites_vasp_crpa_parsers : List Site := [
  ⟨109, s_get_relative_k_from_absolute, 2, []⟩, -- get_relative_k_from_absolute
  ⟨121, s_read_vasp_crpa_vq_to_ndarray, 2, [n_verbose, n_orbsub]⟩, -- read_vasp_crpa_vq_to_ndarray
  ⟨122, s_read_vasp_crpa_vq_to_ndarray, 2, [n_verbose, n_orbsub]⟩, -- read_vasp_crpa_vq_to_ndarray
  ⟨123, s_read_vasp_crpa_vq_to_ndarray, 2, [n_verbose, n_orbsub]⟩, -- read_vasp_crpa_vq_to_ndarray
  ⟨126, s_convert_from_ndarray_to_triqs, 5, []⟩, -- convert_from_ndarray_to_triqs
  ⟨127, s_convert_from_ndarray_to_triqs, 5, []⟩] -- convert_from_ndarray_to_triqs

/-- all calls -/
def sites : List Site :=
  sites_OperatorUtils ++ sites_ParameterCollection ++ sites_analytic_hubbard_atom ++ sites_ase_timing ++ sites_bse ++ sites_dbse ++ sites_eliashberg ++ sites_fitdlr ++ sites_gw ++ sites_gw_solver ++ sites_hf_response ++ sites_hf_solver ++ sites_lattice_utils ++ sites_matrix_rpa ++ sites_numpy_compat ++ sites_plotting_tools ++ sites_rpa_tensor ++ sites_symmetries ++ sites_utilities ++ sites_vasp_crpa_parsers

/-- the functions of the compiled modules: chi_from_gg2_desc.py, freq_conv_desc.py, hubbard_atom_desc.py, lattice_desc.py, linalg_desc.py -/
def compiled : List (List Nm) := [
  [n_chi0_from_gg2_PH, n_chi0_from_gg2_PP, n_chi_from_gg2_PH, n_chi_from_gg2_PP, n_chi0_tau_from_g_tau_PH],
  [n_block_iw_AB_to_matrix_valued, n_block_3nu_AABB_to_tensor_valued, n_get_magnetic_component, n_from_3nu_PH, n_from_3nu_PH_bar,
    n_from_3nu_PP],
  [n_single_particle_greens_function, n_chi_ph_magnetic, n_gamma_ph_magnetic],
  [n_lattice_dyson_g0_wk, n_lattice_dyson_g_wk, n_lattice_dyson_g0_fk, n_lattice_dyson_g_fk, n_lattice_dyson_g_w,
    n_lattice_dyson_g_f, n_fourier_wk_to_wr, n_fourier_wr_to_wk, n_fourier_wr_to_tr, n_fourier_tr_to_wr, n_fourier_fk_to_fr,
    n_fourier_fr_to_fk, n_fourier_Tk_to_Tr, n_fourier_Tr_to_Tk, n_lindhard_chi00, n_solve_rpa_PH, n_dlr_on_imfreq,
    n_dlr_on_imtime, n_split_into_dynamic_wk_and_constant_k, n_add_dynamic_and_static, n_fermi, n_bose, n_rho_k_from_g_wk,
    n_gw_sigma, n_hartree_sigma, n_fock_sigma, n_gw_dynamic_sigma, n_g0w_dynamic_sigma, n_g0w_sigma,
    n_dynamical_screened_interaction_W, n_dynamical_screened_interaction_W_from_generalized_susceptibility, n_eliashberg_product,
    n_eliashberg_product_fft, n_eliashberg_product_fft_constant, n_eliashberg_g_delta_g_product, n_dynamic_and_constant_to_tr,
    n_eliashberg_constant_gamma_f_product, n_construct_phi_wk, n_cluster_mesh_fourier_interpolation, n_chi0_tr_from_grt_PH,
    n_g0_Tk_les_gtr_from_e_k, n_chi0_Tr_from_g_Tr_PH, n_chi0_wr_from_grt_PH, n_chi0_w0r_from_grt_PH, n_chi_w0r_from_chi_tr,
    n_chi_wr_from_chi_tr, n_chi_tr_from_chi_wr, n_chi_wk_from_chi_wr, n_chi_wr_from_chi_wk, n_chi_trapz_tau, n_chi0r_from_gr_PH,
    n_chi0_nr_from_gr_PH_at_specific_w, n_chi0r_from_gr_PH_nompi, n_chi0q_from_g_wk_PH, n_chi0r_from_chi0q, n_chi0q_from_chi0r,
    n_chi0q_sum_nu, n_chi0q_sum_nu_tail_corr_PH, n_chi0q_sum_nu_q, n_chiq_from_chi0q_and_gamma_PH,
    n_chiq_sum_nu_from_chi0q_and_gamma_PH, n_chiq_sum_nu_from_chi0q_and_gamma_and_L_wn_PH, n_chiq_sum_nu_from_g_wk_and_gamma_PH,
    n_chiq_sum_nu_from_e_k_sigma_w_and_gamma_PH, n_chiq_sum_nu, n_chiq_sum_nu_q, n_attatch_tri_vert],
  [n_inverse_PH, n_inverse_PP, n_inverse_PH_bar, n_product_PH, n_product_PP, n_product_PH_bar, n_identity_PH, n_identity_PP,
    n_identity_PH_bar]]

/-- the imports; modules are numbered 0 OperatorUtils, 1 ParameterCollection, 2 __init__, 3 analytic_hubbard_atom, 4 ase_timing, 5 bse, 6 dbse, 7 eliashberg, 8 fitdlr, 9 gw, 10 gw_solver, 11 hf_response, 12 hf_solver, 13 lattice_utils, 14 logo, 15 matrix_rpa, 16 numpy_compat, 17 plot, 18 plotting_tools, 19 rpa_tensor, 20 super_lattice, 21 symmetries, 22 tight_binding, 23 utilities, 24 vasp_crpa_parsers, 25 wannier90, 26 chi_from_gg2, 27 freq_conv, 28 hubbard_atom, 29 lattice, 30 linalg -/
def imports : List Imp := [
  ⟨3, 30, 1, n_ParameterCollection, true⟩,
  ⟨3, 32, 28, n_chi_ph_magnetic, true⟩,
  ⟨3, 33, 28, n_gamma_ph_magnetic, true⟩,
  ⟨3, 34, 28, n_single_particle_greens_function, true⟩,
  ⟨3, 36, 30, n_inverse_PH, true⟩,
  ⟨3, 37, 26, n_chi0_from_gg2_PH, true⟩,
  ⟨3, 38, 27, n_block_iw_AB_to_matrix_valued, true⟩,
  ⟨5, 36, 14, n_tprf_banner, true⟩,
  ⟨5, 38, 30, n_inverse_PH, true⟩,
  ⟨5, 39, 26, n_chi0_from_gg2_PH, true⟩,
  ⟨5, 39, 26, n_chi_from_gg2_PH, true⟩,
  ⟨5, 41, 29, n_fourier_wk_to_wr, true⟩,
  ⟨5, 42, 29, n_chi0r_from_gr_PH, true⟩,
  ⟨5, 43, 29, n_chi0_nr_from_gr_PH_at_specific_w, true⟩,
  ⟨5, 44, 29, n_chi0r_from_gr_PH_nompi, true⟩,
  ⟨5, 45, 29, n_chi0q_from_chi0r, true⟩,
  ⟨5, 46, 29, n_chi0q_sum_nu, true⟩,
  ⟨5, 47, 29, n_chiq_sum_nu_from_chi0q_and_gamma_PH, true⟩,
  ⟨5, 48, 13, n_imtime_bubble_chi0_wk, true⟩,
  ⟨5, 48, 13, n_add_fake_bosonic_mesh, true⟩,
  ⟨5, 240, 1, n_ParameterCollection, false⟩,
  ⟨5, 541, 29, n_chiq_sum_nu_from_g_wk_and_gamma_PH, false⟩,
  ⟨5, 572, 29, n_chiq_sum_nu_from_e_k_sigma_w_and_gamma_PH, false⟩,
  ⟨6, 27, 29, n_fourier_wk_to_wr, true⟩,
  ⟨6, 28, 29, n_chi0r_from_gr_PH, true⟩,
  ⟨6, 29, 29, n_chi0q_from_chi0r, true⟩,
  ⟨6, 30, 29, n_chiq_sum_nu_from_chi0q_and_gamma_and_L_wn_PH, true⟩,
  ⟨6, 32, 30, n_product_PH, true⟩,
  ⟨6, 32, 30, n_inverse_PH, true⟩,
  ⟨6, 33, 26, n_chi0_from_gg2_PH, true⟩,
  ⟨6, 33, 26, n_chi_from_gg2_PH, true⟩,
  ⟨7, 34, 29, n_eliashberg_product, true⟩,
  ⟨7, 35, 29, n_eliashberg_product_fft, true⟩,
  ⟨7, 35, 29, n_eliashberg_product_fft_constant, true⟩,
  ⟨7, 36, 29, n_split_into_dynamic_wk_and_constant_k, true⟩,
  ⟨7, 36, 29, n_dynamic_and_constant_to_tr, true⟩,
  ⟨7, 37, 29, n_construct_phi_wk, true⟩,
  ⟨8, 82, 19, n_get_rpa_tensor, false⟩,
  ⟨8, 83, 0, n_quadratic_matrix_from_operator, false⟩,
  ⟨9, 33, 29, n_fourier_wk_to_wr, true⟩,
  ⟨9, 34, 29, n_fourier_wr_to_wk, true⟩,
  ⟨9, 35, 29, n_fourier_wr_to_tr, true⟩,
  ⟨9, 36, 29, n_fourier_tr_to_wr, true⟩,
  ⟨9, 38, 29, n_chi_wr_from_chi_tr, true⟩,
  ⟨9, 39, 29, n_chi_tr_from_chi_wr, true⟩,
  ⟨9, 40, 29, n_chi_wk_from_chi_wr, true⟩,
  ⟨9, 41, 29, n_chi_wr_from_chi_wk, true⟩,
  ⟨9, 43, 29, n_chi0_tr_from_grt_PH, true⟩,
  ⟨9, 45, 29, n_dynamical_screened_interaction_W, true⟩,
  ⟨9, 46, 29, n_dynamical_screened_interaction_W_from_generalized_susceptibility, true⟩,
  ⟨9, 49, 29, n_hartree_sigma, true⟩,
  ⟨9, 49, 29, n_fock_sigma, true⟩,
  ⟨9, 50, 29, n_gw_sigma, true⟩,
  ⟨9, 50, 29, n_gw_dynamic_sigma, true⟩,
  ⟨9, 50, 29, n_g0w_sigma, true⟩,
  ⟨9, 51, 29, n_lindhard_chi00, true⟩,
  ⟨9, 53, 0, n_quartic_tensor_from_operator, true⟩,
  ⟨10, 33, 29, n_lattice_dyson_g0_wk, true⟩,
  ⟨10, 34, 29, n_lattice_dyson_g_wk, true⟩,
  ⟨10, 36, 29, n_rho_k_from_g_wk, true⟩,
  ⟨10, 37, 29, n_gw_dynamic_sigma, true⟩,
  ⟨10, 37, 29, n_hartree_sigma, true⟩,
  ⟨10, 37, 29, n_fock_sigma, true⟩,
  ⟨10, 38, 29, n_dynamical_screened_interaction_W, true⟩,
  ⟨10, 40, 29, n_dynamical_screened_interaction_W_from_generalized_susceptibility, true⟩,
  ⟨10, 44, 29, n_split_into_dynamic_wk_and_constant_k, true⟩,
  ⟨10, 46, 29, n_fourier_wk_to_wr, true⟩,
  ⟨10, 47, 29, n_fourier_wr_to_tr, true⟩,
  ⟨10, 49, 29, n_chi_wr_from_chi_wk, true⟩,
  ⟨10, 50, 29, n_chi_tr_from_chi_wr, true⟩,
  ⟨10, 52, 29, n_fourier_tr_to_wr, true⟩,
  ⟨10, 53, 29, n_fourier_wr_to_wk, true⟩,
  ⟨10, 55, 13, n_imtime_bubble_chi0_wk, true⟩,
  ⟨10, 56, 13, n_pade_analytical_continuation_wk, true⟩,
  ⟨10, 58, 1, n_ParameterCollection, true⟩,
  ⟨10, 60, 4, n_Timer, true⟩,
  ⟨10, 60, 4, n_timer, true⟩,
  ⟨10, 64, 29, n_dlr_on_imfreq, true⟩,
  ⟨10, 115, 29, n_fourier_wk_to_wr, false⟩,
  ⟨10, 116, 29, n_chi_wr_from_chi_wk, false⟩,
  ⟨11, 35, 16, n_np_eigh, true⟩,
  ⟨12, 37, 16, n_np_eigvalsh, true⟩,
  ⟨12, 37, 16, n_np_eigh, true⟩,
  ⟨12, 51, 19, n_get_rpa_tensor, true⟩,
  ⟨12, 52, 19, n_fundamental_operators_from_gf_struct, true⟩,
  ⟨12, 53, 0, n_is_operator_composed_of_only_fundamental_operators, true⟩,
  ⟨13, 48, 14, n_tprf_banner, true⟩,
  ⟨13, 50, 29, n_lattice_dyson_g0_wk, true⟩,
  ⟨13, 51, 29, n_lattice_dyson_g_wk, true⟩,
  ⟨13, 53, 29, n_fourier_wk_to_wr, true⟩,
  ⟨13, 54, 29, n_fourier_wr_to_tr, true⟩,
  ⟨13, 56, 29, n_chi0_tr_from_grt_PH, true⟩,
  ⟨13, 57, 29, n_chi0_wr_from_grt_PH, true⟩,
  ⟨13, 58, 29, n_chi0_w0r_from_grt_PH, true⟩,
  ⟨13, 59, 29, n_chi_wr_from_chi_tr, true⟩,
  ⟨13, 60, 29, n_chi_w0r_from_chi_tr, true⟩,
  ⟨13, 61, 29, n_chi_wk_from_chi_wr, true⟩,
  ⟨13, 63, 29, n_dlr_on_imfreq, true⟩,
  ⟨15, 39, 16, n_np_inv, true⟩,
  ⟨18, 33, 13, n_k_space_path, true⟩,
  ⟨19, 36, 0, n_quartic_tensor_from_operator, true⟩,
  ⟨19, 37, 0, n_operator_from_quartic_tensor, true⟩,
  ⟨19, 39, 0, n_symmetrize_quartic_tensor, true⟩,
  ⟨19, 41, 0, n_quartic_permutation_symmetrize, true⟩,
  ⟨19, 42, 0, n_quartic_conjugation_symmetrize, true⟩,
  ⟨19, 43, 0, n_quartic_pauli_symmetrize, true⟩,
  ⟨23, 37, 29, n_lattice_dyson_g0_wk, true⟩,
  ⟨23, 37, 29, n_solve_rpa_PH, true⟩,
  ⟨23, 37, 29, n_construct_phi_wk, true⟩,
  ⟨23, 38, 22, n_create_model_for_tests, true⟩,
  ⟨23, 39, 1, n_ParameterCollection, true⟩,
  ⟨23, 40, 13, n_imtime_bubble_chi0_wk, true⟩,
  ⟨23, 41, 19, n_kanamori_charge_and_spin_quartic_interaction_tensors, true⟩,
  ⟨23, 42, 7, n_construct_gamma_singlet_rpa, true⟩,
  ⟨24, 77, 22, n_TBLattice, false⟩,
  ⟨24, 78, 13, n_get_relative_k_from_absolute, false⟩]

/-- an order of the modules -/
def rank : List ℕ := [1, 1, 1, 2, 1, 3, 1, 1, 1, 2, 3, 2, 3, 2, 1, 2, 1, 1, 3, 2, 1, 1, 1, 3, 1, 1, 0, 0, 0, 0, 0]

end Verif.Names
