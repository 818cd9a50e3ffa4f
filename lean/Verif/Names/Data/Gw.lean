import Verif.Names.Data.Ids

/-!
# `python/triqs_tprf/gw.py`

Written by `/verif/tools/names_extract.py`.
-/

set_option linter.style.nameCheck false

namespace Verif.Names.Gw

/-- gw.py:56-90 `bubble_PI_wk` -/
def f_bubble_PI_wk : Fn where
  params := [n_g_wk]
  body :=
    block [
      .use [n_len, n_g_wk],
      .bind [n_nw],
      .use [n_fourier_wk_to_wr, n_g_wk],
      .bind [n_g_wr],
      .use [n_fourier_wr_to_tr, n_g_wr],
      .bind [n_g_tr],
      .del n_g_wr,
      .use [n_chi0_tr_from_grt_PH, n_g_tr],
      .bind [n_PI_tr],
      .del n_g_tr,
      .use [n_chi_wr_from_chi_tr, n_PI_tr, n_nw],
      .bind [n_PI_wr],
      .del n_PI_tr,
      .use [n_chi_wk_from_chi_wr, n_PI_wr],
      .bind [n_PI_wk],
      .del n_PI_wr,
      .use [n_PI_wk],
      .ret]

/-- gw.py:94-108 `get_gw_tensor` -/
def f_get_gw_tensor : Fn where
  params := [n_H_int, n_fundamental_operators]
  body :=
    block [
      .use [n_quartic_tensor_from_operator, n_H_int, n_fundamental_operators],
      .bind [n_U_abcd],
      .use [n_np, n_np, n_U_abcd],
      .bind [n_U_abcd],
      .use [n_U_abcd, n_np, n_U_abcd],
      .bind [n_U_abcd],
      .use [n_U_abcd],
      .ret]

/-- gw.py, all code of the module -/
def mod : Mod where
  top :=
    block [
      .bind [n_itertools],
      .bind [n_np],
      .bind [n_mpi],
      .bind [n_fourier_wk_to_wr],
      .bind [n_fourier_wr_to_wk],
      .bind [n_fourier_wr_to_tr],
      .bind [n_fourier_tr_to_wr],
      .bind [n_chi_wr_from_chi_tr],
      .bind [n_chi_tr_from_chi_wr],
      .bind [n_chi_wk_from_chi_wr],
      .bind [n_chi_wr_from_chi_wk],
      .bind [n_chi0_tr_from_grt_PH],
      .bind [n_dynamical_screened_interaction_W],
      .bind [n_dynamical_screened_interaction_W_from_generalized_susceptibility],
      .bind [n_hartree_sigma, n_fock_sigma],
      .bind [n_gw_sigma, n_gw_dynamic_sigma, n_g0w_sigma],
      .bind [n_lindhard_chi00],
      .bind [n_quartic_tensor_from_operator],
      .bind [n_bubble_PI_wk],
      .bind [n_get_gw_tensor]]
  fns := [f_bubble_PI_wk, f_get_gw_tensor]

end Verif.Names.Gw
