import Verif.Names.Data.Ids

/-!
# `python/triqs_tprf/bse.py`

Written by `/verif/tools/names_extract.py`.
-/

set_option linter.style.nameCheck false

namespace Verif.Names.Bse

/-- bse.py:51-85 `impurity_irreducible_vertex_Gamma` -/
def f_impurity_irreducible_vertex_Gamma : Fn where
  params := [n_g_w, n_g2_wnn]
  body :=
    block [
      .use [n_chi_from_gg2_PH, n_g_w, n_g2_wnn],
      .bind [n_chi_wnn],
      .use [n_chi0_from_gg2_PH, n_g_w, n_g2_wnn],
      .bind [n_chi0_wnn],
      .use [n_inverse_PH, n_chi0_wnn, n_inverse_PH, n_chi_wnn],
      .bind [n_Gamma_wnn],
      .use [n_Gamma_wnn],
      .ret]

/-- bse.py:88-118 `solve_local_bse` -/
def f_solve_local_bse : Fn where
  params := [n_chi0_wnn, n_chi_wnn]
  body :=
    block [
      .use [n_inverse_PH, n_chi0_wnn, n_inverse_PH, n_chi_wnn],
      .bind [n_gamma_wnn],
      .use [n_gamma_wnn],
      .ret]

/-- bse.py:121-155 `fixed_fermionic_window_python_wnk` -/
def f_fixed_fermionic_window_python_wnk : Fn where
  params := [n_chi_wnk, n_nwf]
  body :=
    block [
      .use [n_chi_wnk],
      .bind [n_g2],
      .use [n_g2],
      .bind [n_wmesh, n_nmesh, n_kmesh],
      .use [n_g2],
      .bind [n_beta],
      .use [n_MeshImFreq, n_beta, n_nwf],
      .bind [n_nmesh_small],
      .use [n_Gf, n_MeshProduct, n_wmesh, n_nmesh_small, n_kmesh, n_g2],
      .bind [n_chi_wnk_out],
      .use [n_g2],
      .bind [n_n],
      .use [n_n, n_nwf],
      .bind [n_s],
      .use [n_n, n_nwf],
      .bind [n_e],
      .use [n_g2, n_s, n_e, n_chi_wnk_out, n_chi_wnk_out],
      .ret]

/-- bse.py:158-253 `get_chi0_wnk` -/
def f_get_chi0_wnk : Fn where
  params := [n_g_wk, n_nw, n_nwf]
  dead := [n_ParameterCollection, n_arch, n_p]
  body :=
    block [
      .use [n_g_wk],
      .bind [n_fmesh],
      .use [n_g_wk],
      .bind [n_kmesh],
      .use [n_nwf],
      .ite
        (block [
          .use [n_len, n_fmesh],
          .bind [n_nwf]])
        (.skip),
      .use [n_mpi, n_mpi, n_str, n_g_wk, n_Idx, n_Idx, n_np, n_g_wk, n_len, n_kmesh],
      .bind [n_n],
      .use [n_mpi, n_str, n_n, n_mpi, n_mpi, n_fourier_wk_to_wr, n_g_wk],
      .bind [n_g_wr],
      .use [n_mpi, n_mpi, n_str, n_g_wr, n_Idx, n_Idx, n_np, n_g_wr],
      .bind [n_n_r],
      .use [n_mpi, n_str, n_n_r, n_mpi, n_mpi, n_chi0r_from_gr_PH, n_nw, n_nwf, n_g_wr],
      .bind [n_chi0_wnr],
      .del n_g_wr,
      .use [n_mpi, n_mpi, n_str, n_chi0_wnr, n_Idx, n_Idx, n_Idx, n_np, n_chi0_wnr, n_Idx],
      .bind [n_chi0_r0],
      .use [n_mpi, n_str, n_chi0_r0, n_mpi, n_mpi, n_chi0q_from_chi0r, n_chi0_wnr],
      .bind [n_chi0_wnk],
      .del n_chi0_wnr,
      .use [n_mpi, n_mpi, n_str, n_chi0_wnk, n_Idx, n_Idx, n_Idx, n_np, n_chi0_wnk, n_len, n_kmesh],
      .bind [n_chi0],
      .use [n_mpi, n_str, n_chi0, n_mpi, n_mpi, n_chi0_wnk],
      .ret]

/-- bse.py:256-309 `get_chi0_nk_at_specific_w` -/
def f_get_chi0_nk_at_specific_w : Fn where
  params := [n_g_wk, n_nw_index, n_nwf]
  body :=
    block [
      .use [n_g_wk],
      .bind [n_fmesh],
      .use [n_g_wk],
      .bind [n_kmesh],
      .use [n_nwf],
      .ite
        (block [
          .use [n_len, n_fmesh],
          .bind [n_nwf]])
        (.skip),
      .use [n_mpi, n_np, n_g_wk, n_len, n_kmesh],
      .bind [n_n],
      .use [n_mpi, n_str, n_n, n_mpi, n_mpi, n_fourier_wk_to_wr, n_g_wk],
      .bind [n_g_wr],
      .use [n_mpi, n_chi0_nr_from_gr_PH_at_specific_w, n_nw_index, n_nwf, n_g_wr],
      .bind [n_chi0_nr],
      .del n_g_wr,
      .use [n_mpi, n_add_fake_bosonic_mesh, n_chi0_nr],
      .bind [n_chi0_wnr],
      .del n_chi0_nr,
      .use [n_chi0q_from_chi0r, n_chi0_wnr],
      .bind [n_chi0_wnk],
      .del n_chi0_wnr,
      .use [n_chi0_wnk, n_Idx],
      .bind [n_chi0_nk],
      .del n_chi0_wnk,
      .use [n_chi0_nk],
      .ret]

/-- bse.py:312-408 `solve_lattice_bse` -/
def f_solve_lattice_bse : Fn where
  params := [n_g_wk, n_gamma_wnn]
  body :=
    block [
      .use [n_g_wk],
      .bind [n_fmesh_g],
      .use [n_g_wk],
      .bind [n_kmesh],
      .use [n_gamma_wnn],
      .bind [n_bmesh],
      .use [n_gamma_wnn],
      .bind [n_fmesh],
      .use [n_len, n_kmesh],
      .bind [n_nk],
      .use [n_len, n_bmesh],
      .bind [n_nw],
      .use [n_len, n_fmesh],
      .bind [n_nwf],
      .use [n_len, n_fmesh_g],
      .bind [n_nwf_g],
      .use [n_mpi],
      .ite
        (.use [n_print, n_tprf_banner, n_print, n_print, n_nk, n_print, n_nw, n_print, n_nwf, n_print, n_nwf_g, n_print])
        (.skip),
      .use [n_mpi, n_imtime_bubble_chi0_wk, n_g_wk, n_nw],
      .bind [n_chi0_wk_tail_corr],
      .use [n_mpi, n_mpi, n_str, n_chi0_wk_tail_corr, n_Idx, n_Idx, n_mpi, n_get_chi0_wnk, n_g_wk, n_nw, n_nwf],
      .bind [n_chi0_wnk],
      .use [n_mpi, n_mpi, n_str, n_chi0_wnk, n_Idx, n_Idx, n_Idx, n_mpi, n_mpi, n_chi0q_sum_nu, n_chi0_wnk],
      .bind [n_chi0_wk],
      .use [n_mpi, n_mpi, n_str, n_chi0_wk, n_Idx, n_Idx, n_mpi, n_chi0_wk_tail_corr, n_chi0_wk],
      .bind [n_dchi_wk],
      .use [n_Gf, n_MeshProduct, n_kmesh, n_bmesh, n_chi0_wk_tail_corr],
      .bind [n_chi0_kw],
      .use [n_chi0_wk_tail_corr, n_chi0_kw],
      .del n_chi0_wk,
      .del n_chi0_wk_tail_corr,
      .use [n_chi0_wnk, n_bmesh],
      .ite
        (.raise)
        (.skip),
      .use [n_chi0_wnk, n_fmesh],
      .ite
        (.raise)
        (.skip),
      .use [n_mpi, n_chiq_sum_nu_from_chi0q_and_gamma_PH, n_chi0_wnk, n_gamma_wnn],
      .bind [n_chi_kw],
      .use [n_mpi, n_mpi],
      .del n_chi0_wnk,
      .use [n_mpi, n_kmesh],
      .loop .any
        (block [
          .bind [n_k],
          .use [n_chi_kw, n_k, n_dchi_wk, n_k]])
        (.skip),
      .del n_dchi_wk,
      .use [n_mpi, n_chi_kw, n_chi0_kw],
      .ret]

/-- bse.py:411-515 `solve_lattice_bse_at_specific_w` -/
def f_solve_lattice_bse_at_specific_w : Fn where
  params := [n_g_wk, n_gamma_wnn, n_nw_index]
  body :=
    block [
      .use [n_gamma_wnn, n_Idx, n_nw_index],
      .bind [n_gamma_nn],
      .use [n_add_fake_bosonic_mesh, n_gamma_nn],
      .bind [n_gamma_wnn],
      .use [n_g_wk],
      .bind [n_fmesh_g],
      .use [n_g_wk],
      .bind [n_kmesh],
      .use [n_gamma_wnn],
      .bind [n_bmesh],
      .use [n_gamma_wnn],
      .bind [n_fmesh],
      .use [n_len, n_kmesh],
      .bind [n_nk],
      .use [n_len, n_fmesh],
      .bind [n_nwf],
      .use [n_len, n_fmesh_g],
      .bind [n_nwf_g],
      .use [n_mpi],
      .ite
        (.use [n_print, n_tprf_banner, n_print, n_print, n_nk, n_print, n_nw_index, n_print, n_nwf, n_print, n_nwf_g, n_print])
        (.skip),
      .use [n_mpi, n_imtime_bubble_chi0_wk, n_g_wk, n_np, n_nw_index],
      .bind [n_chi0_wk_tail_corr],
      .use [n_chi0_wk_tail_corr, n_Idx, n_nw_index],
      .bind [n_chi0_k_tail_corr],
      .use [n_add_fake_bosonic_mesh, n_chi0_k_tail_corr, n_bmesh],
      .bind [n_chi0_wk_tail_corr],
      .use [n_get_chi0_nk_at_specific_w, n_g_wk, n_nw_index, n_nwf],
      .bind [n_chi0_nk],
      .use [n_add_fake_bosonic_mesh, n_chi0_nk],
      .bind [n_chi0_wnk],
      .use [n_mpi, n_chi0q_sum_nu, n_chi0_wnk],
      .bind [n_chi0_wk],
      .use [n_chi0_wk_tail_corr, n_chi0_wk],
      .bind [n_dchi_wk],
      .use [n_Gf, n_MeshProduct, n_kmesh, n_bmesh, n_chi0_wk_tail_corr],
      .bind [n_chi0_kw],
      .use [n_chi0_wk_tail_corr, n_chi0_kw],
      .del n_chi0_wk,
      .del n_chi0_wk_tail_corr,
      .use [n_chi0_wnk, n_bmesh],
      .ite
        (.raise)
        (.skip),
      .use [n_chi0_wnk, n_fmesh],
      .ite
        (.raise)
        (.skip),
      .use [n_chi0_wnk, n_kmesh],
      .ite
        (.raise)
        (.skip),
      .use [n_mpi, n_chiq_sum_nu_from_chi0q_and_gamma_PH, n_chi0_wnk, n_gamma_wnn],
      .bind [n_chi_kw],
      .use [n_mpi, n_mpi],
      .del n_chi0_wnk,
      .use [n_mpi, n_kmesh],
      .loop .any
        (block [
          .bind [n_k],
          .use [n_chi_kw, n_k, n_dchi_wk, n_k]])
        (.skip),
      .del n_dchi_wk,
      .use [n_mpi, n_chi_kw, n_Idx],
      .bind [n_chi_k],
      .del n_chi_kw,
      .use [n_chi0_kw, n_Idx],
      .bind [n_chi0_k],
      .del n_chi0_kw,
      .use [n_chi_k, n_chi0_k],
      .ret]

/-- bse.py:518-545 `solve_lattice_bse_depr` -/
def f_solve_lattice_bse_depr : Fn where
  params := [n_g_wk, n_gamma_wnn, n_tail_corr_nwf]
  body :=
    block [
      .use [n_g_wk],
      .bind [n_fmesh_huge, n_kmesh],
      .use [n_gamma_wnn],
      .bind [n_bmesh],
      .use [n_gamma_wnn],
      .bind [n_fmesh],
      .use [n_len, n_kmesh],
      .bind [n_nk],
      .use [n_len, n_bmesh],
      .bind [n_nw],
      .use [n_len, n_fmesh],
      .bind [n_nwf],
      .use [n_len, n_fmesh_huge],
      .bind [n_nwf_sigma],
      .use [n_mpi],
      .ite
        (.use [n_print, n_tprf_banner, n_print, n_print, n_nk, n_print, n_nw, n_print, n_nwf, n_print, n_nwf_sigma, n_print, n_tail_corr_nwf, n_print])
        (.skip),
      .bind [n_chiq_sum_nu_from_g_wk_and_gamma_PH],
      .use [n_chiq_sum_nu_from_g_wk_and_gamma_PH, n_g_wk, n_gamma_wnn, n_tail_corr_nwf],
      .bind [n_chi_kw],
      .use [n_chi_kw],
      .ret]

/-- bse.py:548-576 `solve_lattice_bse_e_k_sigma_w` -/
def f_solve_lattice_bse_e_k_sigma_w : Fn where
  params := [n_mu, n_e_k, n_sigma_w, n_gamma_wnn, n_tail_corr_nwf]
  body :=
    block [
      .use [n_e_k],
      .bind [n_kmesh],
      .use [n_sigma_w],
      .bind [n_fmesh_huge],
      .use [n_gamma_wnn],
      .bind [n_bmesh],
      .use [n_gamma_wnn],
      .bind [n_fmesh],
      .use [n_len, n_kmesh],
      .bind [n_nk],
      .use [n_len, n_bmesh],
      .bind [n_nw],
      .use [n_len, n_fmesh],
      .bind [n_nwf],
      .use [n_len, n_fmesh_huge],
      .bind [n_nwf_sigma],
      .use [n_mpi],
      .ite
        (.use [n_print, n_tprf_banner, n_print, n_print, n_nk, n_print, n_nw, n_print, n_nwf, n_print, n_nwf_sigma, n_print, n_tail_corr_nwf, n_print])
        (.skip),
      .bind [n_chiq_sum_nu_from_e_k_sigma_w_and_gamma_PH],
      .use [n_chiq_sum_nu_from_e_k_sigma_w_and_gamma_PH, n_mu, n_e_k, n_sigma_w, n_gamma_wnn, n_tail_corr_nwf],
      .bind [n_chi_kw],
      .use [n_chi_kw],
      .ret]

/-- bse.py, all code of the module -/
def mod : Mod where
  top :=
    block [
      .bind [n_np],
      .bind [n_mpi],
      .bind [n_HDFArchive],
      .bind [n_MeshImFreq, n_MeshProduct, n_Gf, n_Idx],
      .bind [n_tprf_banner],
      .bind [n_inverse_PH],
      .bind [n_chi0_from_gg2_PH, n_chi_from_gg2_PH],
      .bind [n_fourier_wk_to_wr],
      .bind [n_chi0r_from_gr_PH],
      .bind [n_chi0_nr_from_gr_PH_at_specific_w],
      .bind [n_chi0r_from_gr_PH_nompi],
      .bind [n_chi0q_from_chi0r],
      .bind [n_chi0q_sum_nu],
      .bind [n_chiq_sum_nu_from_chi0q_and_gamma_PH],
      .bind [n_imtime_bubble_chi0_wk, n_add_fake_bosonic_mesh],
      .bind [n_impurity_irreducible_vertex_Gamma],
      .bind [n_solve_local_bse],
      .bind [n_fixed_fermionic_window_python_wnk],
      .bind [n_get_chi0_wnk],
      .bind [n_get_chi0_nk_at_specific_w],
      .bind [n_solve_lattice_bse],
      .bind [n_solve_lattice_bse_at_specific_w],
      .bind [n_solve_lattice_bse_depr],
      .bind [n_solve_lattice_bse_e_k_sigma_w]]
  fns := [f_impurity_irreducible_vertex_Gamma, f_solve_local_bse, f_fixed_fermionic_window_python_wnk, f_get_chi0_wnk,
    f_get_chi0_nk_at_specific_w, f_solve_lattice_bse, f_solve_lattice_bse_at_specific_w, f_solve_lattice_bse_depr,
    f_solve_lattice_bse_e_k_sigma_w]

end Verif.Names.Bse
