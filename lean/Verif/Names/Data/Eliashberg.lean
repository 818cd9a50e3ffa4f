import Verif.Names.Data.Ids

/-!
# `python/triqs_tprf/eliashberg.py`

Written by `/verif/tools/names_extract.py`.
-/

set_option linter.style.nameCheck false

namespace Verif.Names.Eliashberg

/-- eliashberg.py:42-193 `solve_eliashberg` -/
def f_solve_eliashberg : Fn where
  params := [n_Gamma_pp_wk, n_g_wk, n_initial_delta, n_Gamma_pp_const_k, n_tol, n_product, n_solver, n_symmetrize_fct, n_k]
  body :=
    block [
      .clo [n_g_wk],
      .bind [n_from_x_to_wk],
      .bind [n_from_wk_to_x],
      .use [n_type, n_Gamma_pp_wk, n_MeshDLRImFreq],
      .bind [n_hasDLRMesh],
      .use [n_product],
      .ite
        (block [
          .use [n_preprocess_gamma_for_fft, n_Gamma_pp_wk, n_Gamma_pp_const_k],
          .bind [n_Gamma_pp_dyn_tr, n_Gamma_pp_const_r],
          .use [n_np, n_Gamma_pp_dyn_tr],
          .ite
            (block [
              .use [n_functools, n_eliashberg_product_fft_constant, n_Gamma_pp_const_r, n_g_wk],
              .bind [n_eli_prod]])
            (block [
              .use [n_functools, n_eliashberg_product_fft, n_Gamma_pp_dyn_tr, n_Gamma_pp_const_r, n_g_wk],
              .bind [n_eli_prod]])])
        (block [
          .use [n_product],
          .ite
            (block [
              .use [n_hasDLRMesh],
              .ite
                (block [
                  .use [n_NotImplementedError, n_product],
                  .raise])
                (.skip),
              .use [n_functools, n_eliashberg_product, n_Gamma_pp_wk, n_g_wk],
              .bind [n_eli_prod]])
            (block [
              .use [n_NotImplementedError, n_product],
              .raise])]),
      .clo [n_eli_prod, n_from_wk_to_x, n_from_x_to_wk, n_symmetrize_fct],
      .bind [n_matvec],
      .use [n_initial_delta],
      .ite
        (.skip)
        (block [
          .use [n_semi_random_initial_delta, n_g_wk],
          .bind [n_initial_delta]]),
      .use [n_from_wk_to_x, n_initial_delta],
      .bind [n_initial_delta],
      .use [n_solver],
      .ite
        (block [
          .use [n_power_method_LR, n_matvec, n_initial_delta, n_tol],
          .bind [n_es, n_evs],
          .use [n_es, n_evs],
          .bind [n_es, n_evs]])
        (block [
          .use [n_solver],
          .ite
            (block [
              .use [n_implicitly_restarted_arnoldi_method, n_matvec, n_initial_delta, n_k, n_tol],
              .bind [n_es, n_evs]])
            (block [
              .use [n_NotImplementedError, n_solver],
              .raise])]),
      .use [n_evs],
      .ite
        (.use [n_from_x_to_wk])
        (.skip),
      .bind [n_eigen_modes],
      .use [n_es, n_eigen_modes],
      .ret]

/-- eliashberg.py:124-127 `from_x_to_wk` -/
def f_solve_eliashberg_from_x_to_wk : Fn where
  params := [n_delta_x]
  outer := [n_g_wk]
  body :=
    block [
      .use [n_g_wk],
      .bind [n_delta_wk],
      .use [n_delta_x, n_delta_wk, n_delta_wk, n_delta_wk],
      .ret]

/-- eliashberg.py:129-131 `from_wk_to_x` -/
def f_solve_eliashberg_from_wk_to_x : Fn where
  params := [n_delta_wk]
  body :=
    block [
      .use [n_delta_wk],
      .bind [n_delta_x],
      .use [n_delta_x],
      .ret]

/-- eliashberg.py:168-173 `matvec` -/
def f_solve_eliashberg_matvec : Fn where
  params := [n_delta_x]
  outer := [n_eli_prod, n_from_wk_to_x, n_from_x_to_wk, n_symmetrize_fct]
  body :=
    block [
      .use [n_from_x_to_wk, n_delta_x],
      .bind [n_delta_wk],
      .use [n_eli_prod, n_delta_wk],
      .bind [n_delta_out_wk],
      .use [n_symmetrize_fct, n_delta_out_wk],
      .bind [n_delta_out_wk],
      .use [n_from_wk_to_x, n_delta_out_wk],
      .bind [n_delta_out_x],
      .use [n_delta_out_x],
      .ret]

/-- eliashberg.py:196-255 `preprocess_gamma_for_fft` -/
def f_preprocess_gamma_for_fft : Fn where
  params := [n_Gamma_pp_wk, n_Gamma_pp_const_k]
  body :=
    block [
      .use [n_type, n_Gamma_pp_wk, n_MeshDLRImFreq],
      .bind [n_hasDLRMesh],
      .use [n_hasDLRMesh],
      .ite
        (block [
          .use [n_Gamma_pp_const_k],
          .ite
            (block [
              .use [n_Gf, n_Gamma_pp_wk, n_Gamma_pp_wk],
              .bind [n_Gamma_pp_const_k],
              .use [n_Gamma_pp_const_k]])
            (.skip),
          .use [n_Gamma_pp_wk],
          .bind [n_Gamma_pp_dyn_wk],
          .use [n_Gamma_pp_wk, n_Gamma_pp_const_k, n_Gamma_pp_dyn_wk, n_dynamic_and_constant_to_tr, n_Gamma_pp_dyn_wk, n_Gamma_pp_const_k],
          .bind [n_Gamma_pp_dyn_tr, n_Gamma_pp_const_r],
          .use [n_Gamma_pp_dyn_tr, n_Gamma_pp_const_r],
          .ret])
        (.skip),
      .use [n_split_into_dynamic_wk_and_constant_k, n_Gamma_pp_wk],
      .bind [n_Gamma_pp_dyn_wk_fit, n_Gamma_pp_const_k_fit],
      .use [n_type, n_Gamma_pp_const_k],
      .bind [n_const_type],
      .use [n_const_type, n_float],
      .ite
        (.use [n_const_type, n_np])
        (.skip),
      .ite
        (.use [n_Gamma_pp_const_k, n_Gamma_pp_const_k_fit, n_Gamma_pp_wk, n_Gamma_pp_const_k, n_Gamma_pp_dyn_wk_fit])
        (block [
          .use [n_const_type, n_Gf],
          .ite
            (.use [n_Gamma_pp_const_k, n_Gamma_pp_const_k_fit, n_Gamma_pp_wk, n_Gamma_pp_const_k, n_Gamma_pp_dyn_wk_fit])
            (.skip)]),
      .use [n_dynamic_and_constant_to_tr, n_Gamma_pp_dyn_wk_fit, n_Gamma_pp_const_k_fit],
      .bind [n_Gamma_pp_dyn_tr, n_Gamma_pp_const_r],
      .use [n_Gamma_pp_dyn_tr, n_Gamma_pp_const_r],
      .ret]

/-- eliashberg.py:258-298 `semi_random_initial_delta` -/
def f_semi_random_initial_delta : Fn where
  params := [n_g_wk, n_nr_factor, n_seed]
  body :=
    block [
      .use [n_np, n_seed, n_g_wk],
      .bind [n_delta],
      .use [n_delta],
      .bind [n_shape],
      .use [n_delta, n_delta, n_np, n_shape],
      .bind [n_random_data],
      .use [n_np, n_np, n_delta, n_tuple, n_range, n_len, n_shape],
      .bind [n_freq_data],
      .use [n_int, n_nr_factor, n_shape],
      .bind [n_not_randomized],
      .use [n_not_randomized, n_shape, n_not_randomized],
      .bind [n_start, n_stop],
      .use [n_freq_data, n_start, n_stop, n_np, n_stop, n_start, n_np, n_freq_data, n_random_data, n_delta, n_delta],
      .ret]

/-- eliashberg.py:301-335 `implicitly_restarted_arnoldi_method` -/
def f_implicitly_restarted_arnoldi_method : Fn where
  params := [n_matvec, n_init, n_tol, n_k]
  body :=
    block [
      .use [n_init],
      .bind [n_N],
      .use [n_LinearOperator, n_matvec, n_complex, n_N, n_N],
      .bind [n_linop],
      .use [n_eigs, n_linop, n_k, n_tol, n_init],
      .bind [n_Es, n_U],
      .use [n_Es],
      .bind [n_Es],
      .use [n_list, n_Es, n_list, n_U],
      .ret]

/-- eliashberg.py:338-398 `power_method_LR` -/
def f_power_method_LR : Fn where
  params := [n_matvec, n_init, n_tol, n_max_it]
  body :=
    block [
      .clo [n_matvec],
      .bind [n_iteration],
      .use [n_tol, n_max_it],
      .clo [n_iteration],
      .bind [n_power_method],
      .use [n_power_method, n_init, n_tol],
      .bind [n_norm, n_v_k],
      .use [n_iteration, n_v_k],
      .bind [n__, n_v_k_test],
      .use [n_np, n_np, n_v_k, n_v_k_test],
      .bind [n_add],
      .use [n_np, n_np, n_v_k, n_v_k_test],
      .bind [n_diff],
      .use [n_diff, n_add],
      .ite
        (block [
          .use [n_power_method, n_init, n_norm, n_tol],
          .bind [n_norm, n_v_k]])
        (.skip),
      .use [n_norm, n_v_k],
      .ret]

/-- eliashberg.py:361-365 `iteration` -/
def f_power_method_LR_iteration : Fn where
  params := [n_v_k, n_offset]
  outer := [n_matvec]
  body :=
    block [
      .use [n_matvec, n_v_k, n_offset, n_v_k],
      .bind [n_v_k1],
      .use [n_np, n_v_k1],
      .bind [n_v_k1_norm],
      .use [n_v_k1, n_v_k1_norm],
      .bind [n_v_k1],
      .use [n_v_k1_norm, n_offset, n_v_k1],
      .ret]

/-- eliashberg.py:367-384 `power_method` -/
def f_power_method_LR_power_method : Fn where
  params := [n_init, n_offset, n_tol, n_max_it]
  outer := [n_iteration]
  body :=
    block [
      .use [n_iteration, n_init, n_offset],
      .bind [n_norm, n_v_k],
      .bind [n_it],
      .loop .forever
        (block [
          .use [n_iteration, n_v_k, n_offset],
          .bind [n_norm, n_new_v_k],
          .use [n_np, n_np, n_v_k, n_new_v_k],
          .bind [n_add],
          .use [n_np, n_np, n_v_k, n_new_v_k],
          .bind [n_diff],
          .use [n_np, n_add, n_tol],
          .ite
            (.use [n_np, n_diff, n_tol])
            (.skip),
          .ite
            (.brk)
            (.skip),
          .use [n_new_v_k],
          .bind [n_v_k],
          .use [n_it],
          .bind [n_it],
          .use [n_it, n_max_it],
          .ite
            (block [
              .use [n_AssertionError],
              .raise])
            (.skip)])
        (.skip),
      .use [n_norm, n_v_k],
      .ret]

/-- eliashberg.py:401-440 `allclose_by_scalar_multiplication` -/
def f_allclose_by_scalar_multiplication : Fn where
  params := [n_delta_1, n_delta_2, n_atol]
  body :=
    block [
      .use [n_delta_1],
      .bind [n_delta_1_arr],
      .use [n_delta_2],
      .bind [n_delta_2_arr],
      .use [n_delta_1_arr, n_np, n_delta_1_arr],
      .bind [n_delta_1_arr],
      .use [n_delta_2_arr, n_np, n_delta_2_arr],
      .bind [n_delta_2_arr],
      .tryE
        (block [
          .use [n_np, n_delta_1_arr, n_delta_2_arr],
          .bind [n_division_of_deltas]])
        (block [
          .use [n_ValueError],
          .ite
            (.ret)
            (.raise)])
        (.skip),
      .use [n_np, n_division_of_deltas, n_division_of_deltas, n_atol],
      .bind [n_have_common_scalar_factor],
      .use [n_have_common_scalar_factor],
      .ret]

/-- eliashberg.py:443-494 `construct_gamma_singlet_rpa` -/
def f_construct_gamma_singlet_rpa : Fn where
  params := [n_U_d, n_U_m, n_phi_d_wk, n_phi_m_wk]
  body :=
    block [
      .use [n_phi_d_wk],
      .bind [n_gamma_singlet],
      .use [n_np, n_phi_m_wk, n_np, n_phi_d_wk, n_gamma_singlet, n_gamma_singlet, n_gamma_singlet, n_gamma_singlet, n_U_d, n_U_m, n_gamma_singlet],
      .ret]

/-- eliashberg.py:497-549 `construct_gamma_triplet_rpa` -/
def f_construct_gamma_triplet_rpa : Fn where
  params := [n_U_d, n_U_m, n_phi_d_wk, n_phi_m_wk]
  body :=
    block [
      .use [n_phi_d_wk],
      .bind [n_gamma_triplet],
      .use [n_np, n_phi_m_wk, n_np, n_phi_d_wk, n_gamma_triplet, n_gamma_triplet, n_gamma_triplet, n_gamma_triplet, n_U_d, n_U_m, n_gamma_triplet],
      .ret]

/-- eliashberg.py, all code of the module -/
def mod : Mod where
  top :=
    block [
      .bind [n_functools],
      .bind [n_np],
      .bind [n_LinearOperator],
      .bind [n_eigs],
      .bind [n_Gf],
      .bind [n_MeshDLRImFreq],
      .bind [n_eliashberg_product],
      .bind [n_eliashberg_product_fft, n_eliashberg_product_fft_constant],
      .bind [n_split_into_dynamic_wk_and_constant_k, n_dynamic_and_constant_to_tr],
      .bind [n_construct_phi_wk],
      .bind [n_solve_eliashberg],
      .bind [n_preprocess_gamma_for_fft],
      .bind [n_semi_random_initial_delta],
      .bind [n_implicitly_restarted_arnoldi_method],
      .bind [n_power_method_LR],
      .bind [n_allclose_by_scalar_multiplication],
      .bind [n_construct_gamma_singlet_rpa],
      .bind [n_construct_gamma_triplet_rpa]]
  fns := [f_solve_eliashberg, f_solve_eliashberg_from_x_to_wk, f_solve_eliashberg_from_wk_to_x, f_solve_eliashberg_matvec,
    f_preprocess_gamma_for_fft, f_semi_random_initial_delta, f_implicitly_restarted_arnoldi_method, f_power_method_LR,
    f_power_method_LR_iteration, f_power_method_LR_power_method, f_allclose_by_scalar_multiplication,
    f_construct_gamma_singlet_rpa, f_construct_gamma_triplet_rpa]

end Verif.Names.Eliashberg
