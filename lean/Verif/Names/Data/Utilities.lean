import Verif.Names.Data.Ids

/-!
# `python/triqs_tprf/utilities.py`

Written by `/verif/tools/names_extract.py`.
-/

set_option linter.style.nameCheck false

namespace Verif.Names.Utilities

/-- utilities.py:45-52 `show_version_info` -/
def f_show_version_info : Fn where
  params := [n_info]
  body :=
    block [
      .use [n_info],
      .bind [n_string],
      .use [n_string],
      .ret]

/-- utilities.py:55-67 `write_TarGZ_HDFArchive` -/
def f_write_TarGZ_HDFArchive : Fn where
  params := [n_filename, n_kwargs]
  body :=
    block [
      .use [n_filename],
      .bind [n_filename],
      .use [n_filename],
      .bind [n_filename_h5],
      .use [n_filename],
      .bind [n_filename_tar],
      .use [n_HDFArchive, n_filename_h5],
      .bind [n_res],
      .use [n_list, n_kwargs],
      .loop .any
        (block [
          .bind [n_key, n_value],
          .use [n_value, n_res, n_key]])
        (.skip),
      .use [n_tarfile, n_filename_tar],
      .bind [n_tar],
      .use [n_tar, n_filename_h5, n_os, n_filename_h5]]

/-- utilities.py:70-82 `read_TarGZ_HDFArchive` -/
def f_read_TarGZ_HDFArchive : Fn where
  params := [n_filename]
  body :=
    block [
      .use [n_tarfile, n_filename],
      .bind [n_tar],
      .use [n_tar, n_tar],
      .bind [n_f],
      .use [n_NamedTemporaryFile],
      .bind [n_tmp],
      .use [n_tmp, n_f, n_tmp, n_HDFArchive, n_tmp],
      .bind [n_data],
      .use [n_os, n_tmp, n_data],
      .ret]

/-- utilities.py:85-92 `BlockGf_data` -/
def f_BlockGf_data : Fn where
  params := [n_G]
  body :=
    block [
      .use [n_G, n_list, n_G, n_next, n_G],
      .bind [n_shape],
      .use [n_np, n_shape, n_complex],
      .bind [n_data],
      .use [n_enumerate, n_G],
      .loop .any
        (block [
          .bind [n_bidx, n_b, n_g],
          .use [n_g, n_data, n_bidx]])
        (.skip),
      .use [n_data],
      .ret]

/-- utilities.py:95-127 `legendre_filter` -/
def f_legendre_filter : Fn where
  params := [n_G_tau, n_order, n_G_l_cut]
  body :=
    block [
      .bind [n_l_g_l],
      .use [n_G_tau],
      .loop .any
        (block [
          .bind [n_b, n_g],
          .use [n_fit_legendre, n_g, n_order],
          .bind [n_g_l],
          .use [n_g_l, n_np, n_g_l, n_G_l_cut, n_enforce_discontinuity, n_g_l, n_np, n_l_g_l, n_g_l]])
        (.skip),
      .use [n_BlockGf, n_list, n_G_tau, n_l_g_l],
      .bind [n_G_l],
      .use [n_G_l],
      .ret]

/-- utilities.py:130-153 `G2_loc_fixed_fermionic_window_python` -/
def f_G2_loc_fixed_fermionic_window_python : Fn where
  params := [n_g2, n_nwf]
  body :=
    block [
      .use [n_g2],
      .bind [n_nw],
      .use [n_g2],
      .bind [n_n],
      .use [n_g2],
      .bind [n_beta],
      .use [n_n, n_nwf],
      .ite
        (.raise)
        (.skip),
      .use [n_MeshImFreq, n_beta, n_nw],
      .bind [n_mesh_iw],
      .use [n_MeshImFreq, n_beta, n_nwf],
      .bind [n_mesh_inu],
      .use [n_MeshProduct, n_mesh_iw, n_mesh_inu, n_mesh_inu],
      .bind [n_mesh_prod],
      .use [n_Gf, n_mesh_prod, n_g2],
      .bind [n_g2_out],
      .use [n_n, n_nwf],
      .bind [n_s],
      .use [n_n, n_nwf],
      .bind [n_e],
      .use [n_g2, n_s, n_e, n_s, n_e, n_g2_out, n_g2_out],
      .ret]

/-- utilities.py:156-163 `beta_to_temperature` -/
def f_beta_to_temperature : Fn where
  params := [n_beta]
  body :=
    block [
      .bind [n_eV_to_Kelvin],
      .use [n_beta],
      .bind [n_T],
      .use [n_eV_to_Kelvin, n_T],
      .ret]

/-- utilities.py:159-160 `eV_to_Kelvin` -/
def f_beta_to_temperature_eV_to_Kelvin : Fn where
  params := [n_ev]
  body :=
    block [
      .use [n_ev],
      .ret]

/-- utilities.py:166-174 `temperature_to_beta` -/
def f_temperature_to_beta : Fn where
  params := [n_T]
  body :=
    block [
      .bind [n_Kelvin_to_eV],
      .use [n_Kelvin_to_eV, n_T],
      .bind [n_T],
      .use [n_T],
      .bind [n_beta],
      .use [n_beta],
      .ret]

/-- utilities.py:169-170 `Kelvin_to_eV` -/
def f_temperature_to_beta_Kelvin_to_eV : Fn where
  params := [n_K]
  body :=
    block [
      .use [n_K],
      .ret]

/-- utilities.py:177-207 `create_eliashberg_ingredients` -/
def f_create_eliashberg_ingredients : Fn where
  params := [n_p]
  body :=
    block [
      .use [n_create_model_for_tests, n_p],
      .bind [n_H],
      .use [n_H, n_p, n_p, n_p],
      .bind [n_kmesh],
      .use [n_H, n_kmesh],
      .bind [n_e_k],
      .use [n_MeshImFreq, n_p, n_p],
      .bind [n_wmesh],
      .use [n_lattice_dyson_g0_wk, n_p, n_e_k, n_wmesh],
      .bind [n_g0_wk],
      .use [n_imtime_bubble_chi0_wk, n_g0_wk, n_p],
      .bind [n_chi0_wk],
      .use [n_kanamori_charge_and_spin_quartic_interaction_tensors, n_p, n_p, n_p, n_p, n_p],
      .bind [n_U_d, n_U_m],
      .use [n_solve_rpa_PH, n_chi0_wk, n_U_d],
      .bind [n_chi_d],
      .use [n_solve_rpa_PH, n_chi0_wk, n_U_m],
      .bind [n_chi_m],
      .use [n_construct_phi_wk, n_chi_d, n_U_d],
      .bind [n_phi_d_wk],
      .use [n_construct_phi_wk, n_chi_m, n_U_m],
      .bind [n_phi_m_wk],
      .use [n_construct_gamma_singlet_rpa, n_U_d, n_U_m, n_phi_d_wk, n_phi_m_wk],
      .bind [n_gamma],
      .use [n_ParameterCollection, n_g0_wk, n_gamma, n_U_m, n_U_d, n_chi_m, n_chi_d],
      .bind [n_eliashberg_ingredients],
      .use [n_eliashberg_ingredients],
      .ret]

/-- utilities.py:210-219 `create_g0_wk_for_test_model` -/
def f_create_g0_wk_for_test_model : Fn where
  params := [n_p]
  body :=
    block [
      .use [n_create_model_for_tests, n_p],
      .bind [n_H],
      .use [n_H, n_p, n_p, n_p],
      .bind [n_kmesh],
      .use [n_H, n_kmesh],
      .bind [n_e_k],
      .use [n_MeshImFreq, n_p, n_p],
      .bind [n_wmesh],
      .use [n_lattice_dyson_g0_wk, n_p, n_e_k, n_wmesh],
      .bind [n_g0_wk],
      .use [n_g0_wk],
      .ret]

/-- utilities.py:222-228 `assert_parameter_collection_not_equal_model_parameters` -/
def f_assert_parameter_collection_not_equal_model_parameters : Fn where
  params := [n_p1, n_p2, n_model_parameters]
  body :=
    block [
      .use [n_model_parameters],
      .loop .any
        (block [
          .bind [n_model_parameter],
          .use [n_p1, n_model_parameter, n_p2, n_model_parameter],
          .bind [n_value1, n_value2],
          .use [n_value1, n_value2],
          .ite
            (block [
              .bind [n_error],
              .use [n_error, n_model_parameter, n_value1, n_value2],
              .bind [n_error],
              .use [n_AssertionError, n_error],
              .raise])
            (.skip)])
        (.skip)]

/-- utilities.py, all code of the module -/
def mod : Mod where
  top :=
    block [
      .bind [n_os],
      .bind [n_tarfile],
      .bind [n_NamedTemporaryFile],
      .bind [n_np],
      .bind [n_HDFArchive],
      .bind [n_Gf, n_MeshImFreq, n_MeshProduct, n_BlockGf],
      .bind [n_fit_legendre],
      .bind [n_enforce_discontinuity],
      .bind [n_lattice_dyson_g0_wk, n_solve_rpa_PH, n_construct_phi_wk],
      .bind [n_create_model_for_tests],
      .bind [n_ParameterCollection],
      .bind [n_imtime_bubble_chi0_wk],
      .bind [n_kanamori_charge_and_spin_quartic_interaction_tensors],
      .bind [n_construct_gamma_singlet_rpa],
      .bind [n_show_version_info],
      .bind [n_write_TarGZ_HDFArchive],
      .bind [n_read_TarGZ_HDFArchive],
      .bind [n_BlockGf_data],
      .bind [n_legendre_filter],
      .bind [n_G2_loc_fixed_fermionic_window_python],
      .bind [n_beta_to_temperature],
      .bind [n_temperature_to_beta],
      .bind [n_create_eliashberg_ingredients],
      .bind [n_create_g0_wk_for_test_model],
      .bind [n_assert_parameter_collection_not_equal_model_parameters]]
  fns := [f_show_version_info, f_write_TarGZ_HDFArchive, f_read_TarGZ_HDFArchive, f_BlockGf_data, f_legendre_filter,
    f_G2_loc_fixed_fermionic_window_python, f_beta_to_temperature, f_beta_to_temperature_eV_to_Kelvin, f_temperature_to_beta,
    f_temperature_to_beta_Kelvin_to_eV, f_create_eliashberg_ingredients, f_create_g0_wk_for_test_model,
    f_assert_parameter_collection_not_equal_model_parameters]

end Verif.Names.Utilities
