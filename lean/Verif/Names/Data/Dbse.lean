import Verif.Names.Data.Ids

/-!
# `python/triqs_tprf/dbse.py`

Written by `/verif/tools/names_extract.py`.
-/

set_option linter.style.nameCheck false

namespace Verif.Names.Dbse

/-- dbse.py:36-73 `impurity_reducible_vertex_F` -/
def f_impurity_reducible_vertex_F : Fn where
  params := [n_g_w, n_g2_wnn]
  body :=
    block [
      .use [n_chi_from_gg2_PH, n_g_w, n_g2_wnn],
      .bind [n_chi_wnn],
      .use [n_chi0_from_gg2_PH, n_g_w, n_g2_wnn],
      .bind [n_chi0_wnn],
      .use [n_chi_wnn, n_chi0_wnn],
      .bind [n_g2_conn_wnn],
      .use [n_inverse_PH, n_chi0_wnn],
      .bind [n_inv_chi0_wnn],
      .use [n_product_PH, n_inv_chi0_wnn, n_product_PH, n_g2_conn_wnn, n_inv_chi0_wnn],
      .bind [n_F_wnn],
      .use [n_F_wnn],
      .ret]

/-- dbse.py:76-144 `solve_lattice_dbse` -/
def f_solve_lattice_dbse : Fn where
  params := [n_g_wk, n_F_wnn, n_L_wn, n_chi_imp_w]
  body :=
    block [
      .use [n_F_wnn],
      .bind [n_bmesh],
      .use [n_F_wnn],
      .bind [n_fmesh],
      .use [n_len, n_fmesh, n_len, n_g_wk],
      .ite
        (.raise)
        (.skip),
      .use [n_len, n_bmesh, n_len, n_L_wn],
      .ite
        (.raise)
        (.skip),
      .use [n_len, n_fmesh, n_len, n_L_wn],
      .ite
        (.raise)
        (.skip),
      .use [n_len, n_bmesh, n_len, n_chi_imp_w],
      .ite
        (.raise)
        (.skip),
      .use [n_len, n_bmesh],
      .bind [n_nw],
      .use [n_len, n_fmesh],
      .bind [n_nn],
      .use [n_print, n_fourier_wk_to_wr, n_g_wk],
      .bind [n_g_nonlocal_wr],
      .use [n_g_nonlocal_wr, n_Idx, n_print, n_chi0r_from_gr_PH, n_nw, n_nn, n_g_nonlocal_wr],
      .bind [n_chi0_nonlocal_wnr],
      .del n_g_nonlocal_wr,
      .use [n_print, n_chi0q_from_chi0r, n_chi0_nonlocal_wnr],
      .bind [n_chi0_nonlocal_wnk],
      .del n_chi0_nonlocal_wnr,
      .use [n_print, n_Gf, n_L_wn, n_MeshProduct, n_bmesh, n_fmesh],
      .bind [n_L_resize_wn],
      .use [n_L_resize_wn],
      .loop .any
        (block [
          .bind [n_w, n_n],
          .use [n_L_wn, n_Idx, n_w, n_Idx, n_n, n_L_resize_wn, n_w, n_n]])
        (.skip),
      .use [n_print, n_chiq_sum_nu_from_chi0q_and_gamma_and_L_wn_PH, n_chi0_nonlocal_wnk, n_F_wnn, n_L_resize_wn],
      .bind [n_chi_kw],
      .use [n_bmesh],
      .loop .any
        (block [
          .bind [n_w],
          .use [n_chi_kw, n_w, n_chi_imp_w, n_Idx, n_w]])
        (.skip),
      .del n_chi0_nonlocal_wnk,
      .del n_L_resize_wn,
      .use [n_chi_kw],
      .ret]

/-- dbse.py, all code of the module -/
def mod : Mod where
  top :=
    block [
      .bind [n_Gf, n_MeshProduct, n_Idx],
      .bind [n_fourier_wk_to_wr],
      .bind [n_chi0r_from_gr_PH],
      .bind [n_chi0q_from_chi0r],
      .bind [n_chiq_sum_nu_from_chi0q_and_gamma_and_L_wn_PH],
      .bind [n_product_PH, n_inverse_PH],
      .bind [n_chi0_from_gg2_PH, n_chi_from_gg2_PH],
      .bind [n_impurity_reducible_vertex_F],
      .bind [n_solve_lattice_dbse]]
  fns := [f_impurity_reducible_vertex_F, f_solve_lattice_dbse]

end Verif.Names.Dbse
