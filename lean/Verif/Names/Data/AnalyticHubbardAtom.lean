import Verif.Names.Data.Ids

/-!
# `python/triqs_tprf/analytic_hubbard_atom.py`

Written by `/verif/tools/names_extract.py`.
-/

set_option linter.style.nameCheck false

namespace Verif.Names.AnalyticHubbardAtom

/-- analytic_hubbard_atom.py:41-120 `analytic_hubbard_atom` -/
def f_analytic_hubbard_atom : Fn where
  params := [n_beta, n_U, n_nw, n_nwf, n_nwf_gf]
  body :=
    block [
      .use [n_ParameterCollection],
      .bind [n_d],
      .use [n_beta, n_U, n_nw, n_nwf, n_nwf_gf, n_d, n_d, n_d, n_d, n_d, n_single_particle_greens_function, n_beta, n_U, n_nwf_gf],
      .bind [n_g_iw],
      .use [n_g_iw, n_d, n_BlockGf, n_g_iw, n_g_iw],
      .bind [n_G_iw_block],
      .use [n_block_iw_AB_to_matrix_valued, n_G_iw_block],
      .bind [n_g_mat],
      .use [n_chi_ph_magnetic, n_beta, n_U, n_nw, n_nwf, n_d, n_chi0_from_gg2_PH, n_g_mat, n_d, n_d, n_inverse_PH, n_d, n_inverse_PH, n_d, n_d,
        n_gamma_ph_magnetic, n_beta, n_U, n_nw, n_nwf, n_d, n_np, n_beta, n_U, n_d, n_d, n_d, n_beta, n_d, n_d, n_d, n_d],
      .ret]

/-- analytic_hubbard_atom.py, all code of the module -/
def mod : Mod where
  star := [n_BlockGf]
  top :=
    block [
      .bind [n_np],
      .bind [n_ParameterCollection],
      .bind [n_chi_ph_magnetic],
      .bind [n_gamma_ph_magnetic],
      .bind [n_single_particle_greens_function],
      .bind [n_inverse_PH],
      .bind [n_chi0_from_gg2_PH],
      .bind [n_block_iw_AB_to_matrix_valued],
      .bind [n_analytic_hubbard_atom]]
  fns := [f_analytic_hubbard_atom]

end Verif.Names.AnalyticHubbardAtom
