import Verif.Names.Data.Ids

/-!
# `python/triqs_tprf/lattice_utils.py`

Written by `/verif/tools/names_extract.py`.
-/

set_option linter.style.nameCheck false

namespace Verif.Names.LatticeUtils

/-- lattice_utils.py:66-106 `add_fake_bosonic_mesh` -/
def f_add_fake_bosonic_mesh : Fn where
  params := [n_gf, n_beta]
  body :=
    block [
      .use [n_gf],
      .bind [n_mesh],
      .use [n_isinstance, n_mesh, n_MeshProduct],
      .ite
        (block [
          .use [n_mesh],
          .bind [n_meshes]])
        (block [
          .use [n_mesh],
          .bind [n_meshes]]),
      .use [n_beta],
      .ite
        (.skip)
        (block [
          .use [n_meshes],
          .ite
            (.use [n_hasattr])
            (.skip),
          .bind [n_betas],
          .use [n_len, n_betas],
          .ite
            (block [
              .use [n_ValueError],
              .raise])
            (.skip),
          .use [n_betas],
          .bind [n_beta]]),
      .use [n_MeshImFreq, n_beta],
      .bind [n_wmesh],
      .use [n_wmesh, n_meshes],
      .bind [n_mesh],
      .use [n_MeshProduct, n_mesh],
      .bind [n_mesh],
      .use [n_Gf, n_mesh, n_gf],
      .bind [n_gf_w],
      .use [n_gf, n_gf_w, n_gf_w],
      .ret]

/-- lattice_utils.py:109-119 `put_gf_on_mesh` -/
def f_put_gf_on_mesh : Fn where
  params := [n_g_in, n_wmesh]
  body :=
    block [
      .use [n_len, n_wmesh, n_len, n_g_in],
      .ite
        (.raise)
        (.skip),
      .use [n_Gf, n_wmesh, n_g_in],
      .bind [n_g_out],
      .use [n_wmesh],
      .loop .any
        (block [
          .bind [n_w],
          .use [n_w, n_wmesh],
          .bind [n_index],
          .use [n_g_in, n_Idx, n_index, n_g_out, n_w]])
        (.skip),
      .use [n_g_out],
      .ret]

/-- lattice_utils.py:122-139 `strip_sigma` -/
def f_strip_sigma : Fn where
  params := [n_nw, n_beta, n_sigma_in, n_debug]
  body :=
    block [
      .use [n_np, n_beta, n_sigma_in, n_MeshImFreq, n_beta, n_nw],
      .bind [n_wmesh],
      .use [n_Gf, n_wmesh, n_sigma_in],
      .bind [n_sigma],
      .use [n_wmesh],
      .loop .any
        (block [
          .bind [n_w],
          .use [n_w, n_wmesh],
          .bind [n_index],
          .use [n_sigma_in, n_Idx, n_index, n_sigma, n_w]])
        (.skip),
      .use [n_debug],
      .ifv n_debug
        (block [
          .bind [n_oplot, n_plt],
          .use [n_oplot, n_p, n_oplot, n_sigma, n_plt, n_exit]])
        (.skip),
      .use [n_sigma],
      .ret]

/-- lattice_utils.py:142-188 `bubble_setup` -/
def f_bubble_setup : Fn where
  params := [n_beta, n_mu, n_tb_lattice, n_nk, n_nw, n_sigma_w]
  body :=
    block [
      .use [n_print, n_tprf_banner, n_print, n_beta, n_print, n_mu, n_print, n_sigma, n_tb_lattice],
      .bind [n_norb],
      .use [n_print, n_nk, n_print, n_nw, n_print, n_norb, n_print, n_nw],
      .bind [n_ntau],
      .use [n_np, n_nk, n_norb, n_np, n_nk, n_nw, n_ntau, n_norb],
      .bind [n_ntot],
      .use [n_ntot, n_np],
      .bind [n_nbytes],
      .use [n_nbytes],
      .bind [n_ngb],
      .use [n_print, n_ngb, n_BrillouinZone, n_tb_lattice],
      .bind [n_bz],
      .use [n_MeshBrZone, n_bz, n_nk],
      .bind [n_bzmesh],
      .use [n_print, n_ek_tb_dispersion_on_bzmesh, n_tb_lattice, n_bzmesh, n_bz],
      .bind [n_e_k],
      .use [n_sigma],
      .ite
        (block [
          .use [n_print, n_MeshImFreq, n_beta, n_nw],
          .bind [n_wmesh],
          .use [n_lattice_dyson_g0_wk, n_mu, n_e_k, n_wmesh],
          .bind [n_g_wk]])
        (block [
          .use [n_print, n_strip_sigma, n_nw, n_beta, n_sigma],
          .bind [n_sigma_w],
          .use [n_lattice_dyson_g_wk, n_mu, n_e_k, n_sigma_w],
          .bind [n_g_wk]]),
      .use [n_print, n_fourier_wk_to_wr, n_g_wk],
      .bind [n_g_wr],
      .del n_g_wk,
      .use [n_print, n_fourier_wr_to_tr, n_g_wr],
      .bind [n_g_tr],
      .del n_g_wr,
      .use [n_sigma],
      .ite
        (block [
          .use [n_g_tr],
          .ret])
        (block [
          .use [n_g_tr, n_sigma_w],
          .ret])]

/-- lattice_utils.py:191-269 `imtime_bubble_chi0_wk` -/
def f_imtime_bubble_chi0_wk : Fn where
  params := [n_g_wk, n_nw, n_save_memory, n_verbose]
  flags := [n_save_memory]
  body :=
    block [
      .use [n_multiprocessing],
      .bind [n_ncores],
      .use [n_g_wk],
      .bind [n_wmesh, n_kmesh],
      .use [n_g_wk],
      .bind [n_norb],
      .use [n_wmesh],
      .bind [n_beta],
      .use [n_len, n_wmesh],
      .bind [n_nw_g],
      .use [n_len, n_kmesh],
      .bind [n_nk],
      .use [n_nw_g],
      .bind [n_ntau],
      .use [n_ntau, n_np, n_nk, n_norb],
      .bind [n_ng_tr],
      .use [n_nw_g, n_np, n_nk, n_norb],
      .bind [n_ng_wr],
      .use [n_ntau, n_norb],
      .bind [n_ng_t],
      .use [n_ntau, n_np, n_nk, n_norb],
      .bind [n_nchi_tr],
      .use [n_nw, n_np, n_nk, n_norb],
      .bind [n_nchi_wr],
      .use [n_ntau, n_norb],
      .bind [n_nchi_t],
      .use [n_nw, n_norb],
      .bind [n_nchi_w],
      .use [n_np, n_nk, n_norb],
      .bind [n_nchi_r],
      .use [n_nw],
      .ite
        (block [
          .use [n_ng_tr, n_ng_wr],
          .bind [n_ntot_case_1],
          .use [n_ng_tr, n_nchi_wr, n_ncores, n_nchi_t, n_ng_t],
          .bind [n_ntot_case_2],
          .use [n_nchi_wr],
          .bind [n_ntot_case_3],
          .use [n_max, n_ntot_case_1, n_ntot_case_2, n_ntot_case_3],
          .bind [n_ntot]])
        (block [
          .use [n_ng_tr, n_nchi_tr, n_ncores, n_nchi_t, n_ng_t],
          .bind [n_ntot_case_1],
          .use [n_nchi_tr, n_nchi_wr, n_ncores, n_nchi_w, n_nchi_t],
          .bind [n_ntot_case_2],
          .use [n_max, n_ntot_case_1, n_ntot_case_2],
          .bind [n_ntot]]),
      .use [n_ntot, n_np],
      .bind [n_nbytes],
      .use [n_nbytes],
      .bind [n_ngb],
      .use [n_verbose],
      .ite
        (.use [n_mpi])
        (.skip),
      .ite
        (.use [n_print, n_tprf_banner, n_print, n_beta, n_print, n_nk, n_print, n_nw_g, n_print, n_norb, n_print, n_print, n_ngb])
        (.skip),
      .use [n_verbose],
      .ifv n_verbose
        (.use [n_mpi])
        (.skip),
      .use [n_fourier_wk_to_wr, n_g_wk],
      .bind [n_g_wr],
      .del n_g_wk,
      .use [n_verbose],
      .ifv n_verbose
        (.use [n_mpi])
        (.skip),
      .use [n_fourier_wr_to_tr, n_g_wr],
      .bind [n_g_tr],
      .del n_g_wr,
      .use [n_nw],
      .ite
        (block [
          .use [n_verbose],
          .ifv n_verbose
            (.use [n_mpi])
            (.skip),
          .use [n_chi0_w0r_from_grt_PH, n_g_tr],
          .bind [n_chi0_wr],
          .del n_g_tr])
        (block [
          .use [n_save_memory],
          .ifv n_save_memory
            (block [
              .use [n_save_memory],
              .ifv n_save_memory
                (block [
                  .use [n_chi0_wr_from_grt_PH, n_g_tr, n_nw],
                  .bind [n_chi0_wr]])
                (.skip)])
            (block [
              .use [n_verbose],
              .ifv n_verbose
                (.use [n_mpi])
                (.skip),
              .use [n_chi0_tr_from_grt_PH, n_g_tr],
              .bind [n_chi0_tr],
              .del n_g_tr,
              .use [n_verbose],
              .ifv n_verbose
                (.use [n_mpi])
                (.skip),
              .use [n_chi_wr_from_chi_tr, n_chi0_tr, n_nw],
              .bind [n_chi0_wr],
              .del n_chi0_tr])]),
      .use [n_verbose],
      .ifv n_verbose
        (.use [n_mpi])
        (.skip),
      .use [n_chi_wk_from_chi_wr, n_chi0_wr],
      .bind [n_chi0_wk],
      .del n_chi0_wr,
      .use [n_chi0_wk],
      .ret]

/-- lattice_utils.py:272-296 `chi_contraction` -/
def f_chi_contraction : Fn where
  params := [n_chi, n_op1, n_op2]
  body :=
    block [
      .use [n_chi, n_op1],
      .ite
        (.use [n_chi, n_op2])
        (.skip),
      .ite
        (block [
          .use [n_ValueError, n_op1, n_op2, n_chi],
          .raise])
        (.skip),
      .use [n_chi],
      .bind [n_chi_op1op2],
      .use [n_np, n_chi, n_op1, n_op2, n_chi_op1op2, n_chi_op1op2],
      .ret]

/-- lattice_utils.py:299-317 `chi0_w0k_tau_bubble` -/
def f_chi0_w0k_tau_bubble : Fn where
  params := [n_beta, n_mu, n_tb_lattice, n_nk, n_nw, n_sigma_w]
  body :=
    block [
      .use [n_sigma_w],
      .ite
        (block [
          .use [n_bubble_setup, n_beta, n_mu, n_tb_lattice, n_nk, n_nw],
          .bind [n_g_tr]])
        (block [
          .use [n_bubble_setup, n_beta, n_mu, n_tb_lattice, n_nk, n_nw, n_sigma_w],
          .bind [n_g_tr, n_sigma_w_cut]]),
      .use [n_print, n_chi0_w0r_from_grt_PH, n_g_tr],
      .bind [n_chi0_wr],
      .del n_grt,
      .use [n_print, n_chi_wk_from_chi_wr, n_chi0_wr],
      .bind [n_chi0_wk],
      .del n_chi0_wr,
      .use [n_sigma],
      .ite
        (block [
          .use [n_chi0_wk],
          .ret])
        (block [
          .use [n_chi0_wk, n_sigma_w_cut],
          .ret])]

/-- lattice_utils.py:320-332 `ek_tb_dispersion_on_bzmesh` -/
def f_ek_tb_dispersion_on_bzmesh : Fn where
  params := [n_tb_lattice, n_bzmesh, n_bz]
  body :=
    block [
      .use [n_tb_lattice],
      .bind [n_n_orb],
      .use [n_Gf, n_bzmesh, n_n_orb],
      .bind [n_ek],
      .use [n_np, n_bzmesh],
      .bind [n_k_vec],
      .use [n_get_relative_k_from_absolute, n_k_vec, n_bz],
      .bind [n_k_vec_rel],
      .use [n_tb_lattice, n_k_vec_rel, n_ek, n_ek],
      .ret]

/-- lattice_utils.py:335-337 `get_relative_k_from_absolute` -/
def f_get_relative_k_from_absolute : Fn where
  params := [n_k_vec, n_units]
  body :=
    block [
      .use [n_np, n_np, n_units, n_k_vec],
      .bind [n_k_vec_rel],
      .use [n_k_vec_rel],
      .ret]

/-- lattice_utils.py:340-342 `get_kidx_from_k_vec_relative` -/
def f_get_kidx_from_k_vec_relative : Fn where
  params := [n_k_vec_rel, n_nk]
  body :=
    block [
      .use [n_np, n_np, n_k_vec_rel, n_np, n_nk, n_np],
      .bind [n_kidx],
      .use [n_kidx],
      .ret]

/-- lattice_utils.py:345-364 `get_k_components_from_k_vec` -/
def f_get_k_components_from_k_vec : Fn where
  params := [n_k_vec, n_nk]
  body :=
    block [
      .bind [n_dim],
      .use [n_dim, n_list, n_nk],
      .bind [n_shape_4],
      .use [n_dim, n_np, n_nk],
      .bind [n_shape_2],
      .use [n_k_vec],
      .bind [n_k_vec],
      .use [n_k_vec, n_shape_4],
      .bind [n_k_vec],
      .bind [n_k_out],
      .use [n_range, n_dim],
      .loop .any
        (block [
          .bind [n_axis],
          .use [n_dim],
          .bind [n_cut],
          .use [n_slice, n_cut, n_axis, n_axis, n_cut],
          .bind [n_cut],
          .use [n_k_out, n_k_vec, n_tuple, n_cut]])
        (.skip),
      .use [n_tuple, n_k_out],
      .ret]

/-- lattice_utils.py:367-379 `cluster_mesh_fourier_interpolation` -/
def f_cluster_mesh_fourier_interpolation : Fn where
  params := [n_k, n_chiwr]
  body :=
    block [
      .use [n_len, n_k],
      .ite
        (.raise)
        (.skip),
      .use [n_k],
      .ite
        (.raise)
        (.skip),
      .use [n_chiwr],
      .bind [n_rmesh],
      .use [n_np, n_rmesh],
      .bind [n_r],
      .use [n_np, n_np, n_k, n_r],
      .bind [n_exp_fact],
      .use [n_np, n_chiwr, n_exp_fact],
      .bind [n_chi00wk_data],
      .use [n_chi00wk_data],
      .ret]

/-- lattice_utils.py:382-402 `get_abs_k_chi_interpolator` -/
def f_get_abs_k_chi_interpolator : Fn where
  params := [n_values, n_bzmesh, n_bz, n_extend_bz]
  body :=
    block [
      .use [n_bz],
      .bind [n_k_mat],
      .use [n_np, n_bzmesh],
      .bind [n_k_vec],
      .bind [n_k_vec_ext],
      .bind [n_values_ext],
      .use [n_itertools, n_extend_bz],
      .loop .any
        (block [
          .bind [n_k_shift],
          .use [n_np, n_k_mat, n_k_shift],
          .bind [n_k_shift],
          .use [n_k_vec_ext, n_k_vec, n_k_shift, n_values_ext, n_values]])
        (.skip),
      .use [n_np, n_k_vec_ext],
      .bind [n_k_vec],
      .use [n_np, n_values_ext],
      .bind [n_values],
      .bind [n_LinearNDInterpolator],
      .use [n_LinearNDInterpolator, n_k_vec, n_values, n_float],
      .bind [n_interp],
      .use [n_interp],
      .ret]

/-- lattice_utils.py:405-437 `get_rel_k_chi_interpolator` -/
def f_get_rel_k_chi_interpolator : Fn where
  params := [n_values, n_bzmesh, n_bz, n_nk, n_extend_boundary, n_interpolator]
  body :=
    block [
      .use [n_bz],
      .bind [n_k_mat],
      .use [n_np, n_bzmesh],
      .bind [n_k_vec],
      .use [n_get_relative_k_from_absolute, n_k_vec, n_bz],
      .bind [n_k_vec_rel],
      .use [n_get_kidx_from_k_vec_relative, n_k_vec_rel, n_nk],
      .bind [n_k_idx],
      .use [n_get_k_components_from_k_vec, n_k_vec_rel, n_nk],
      .bind [n_kx, n_ky, n_kz],
      .use [n_extend_boundary],
      .ifv n_extend_boundary
        (block [
          .use [n_extend_data_on_boundary, n_values, n_nk],
          .bind [n_values, n_k_vec_rel, n_kx, n_ky, n_kz]])
        (block [
          .use [n_values, n_nk],
          .bind [n_values]]),
      .use [n_interpolator],
      .ite
        (block [
          .bind [n_RegularGridInterpolator],
          .use [n_RegularGridInterpolator, n_kx, n_ky, n_kz, n_values, n_float],
          .bind [n_interp]])
        (block [
          .use [n_interpolator],
          .ite
            (block [
              .bind [n_NearestNDInterpolator],
              .use [n_NearestNDInterpolator, n_k_vec_rel, n_values],
              .bind [n_interp]])
            (block [
              .use [n_interpolator],
              .ite
                (block [
                  .bind [n_LinearNDInterpolator],
                  .use [n_LinearNDInterpolator, n_k_vec_rel, n_values, n_float],
                  .bind [n_interp]])
                (block [
                  .use [n_NotImplementedError],
                  .raise])])]),
      .use [n_interp],
      .ret]

/-- lattice_utils.py:440-468 `extend_data_on_boundary` -/
def f_extend_data_on_boundary : Fn where
  params := [n_values, n_nk]
  body :=
    block [
      .use [n_np, n_nk],
      .bind [n_nk],
      .use [n_nk],
      .bind [n_nk_ext],
      .use [n_nk_ext],
      .ite
        (.use [n_np])
        (.skip),
      .bind [n_coords],
      .use [n_np, n_coords],
      .bind [n_Coords],
      .use [n_zip, n_Coords, n_nk],
      .ite
        (.use [n_np])
        (.skip),
      .bind [n_Coords_mod],
      .use [n_values, n_nk, n_tuple, n_Coords_mod],
      .bind [n_values_ext],
      .use [n_values_ext, n_nk_ext],
      .bind [n_values_ext],
      .use [n_np, n_Coords],
      .bind [n_k_idx_ext],
      .use [n_np, n_k_idx_ext, n_np, n_nk],
      .bind [n_k_vec_rel_ext],
      .use [n_get_k_components_from_k_vec, n_k_vec_rel_ext, n_nk_ext],
      .bind [n_kxe, n_kye, n_kze],
      .use [n_values_ext, n_k_vec_rel_ext, n_kxe, n_kye, n_kze],
      .ret]

/-- lattice_utils.py:471-505 `k_space_path` -/
def f_k_space_path : Fn where
  params := [n_paths, n_num, n_bz, n_relative_coordinates]
  body :=
    block [
      .bind [n_k_space_path],
      .use [n_k_space_path, n_paths, n_num, n_bz, n_relative_coordinates],
      .ret]

/-- lattice_utils.py:509-517 `gf_tensor_to_matrix` -/
def f_gf_tensor_to_matrix : Fn where
  params := [n_g]
  body :=
    block [
      .use [n_g, n_g],
      .bind [n_N],
      .use [n_g, n_g],
      .bind [n_M],
      .use [n_Gf, n_g, n_N, n_M],
      .bind [n_g_mat],
      .use [n_np, n_g, n_g, n_N, n_M, n_g_mat, n_g_mat],
      .ret]

/-- lattice_utils.py:521-526 `gf_matrix_to_tensor` -/
def f_gf_matrix_to_tensor : Fn where
  params := [n_g_mat, n_target_shape]
  body :=
    block [
      .use [n_Gf, n_g_mat, n_target_shape],
      .bind [n_g],
      .use [n_g_mat, n_list, n_target_shape],
      .bind [n_shape],
      .use [n_np, n_g_mat, n_shape, n_g, n_g],
      .ret]

/-- lattice_utils.py:530-586 `pade_analytical_continuation_wk` -/
def f_pade_analytical_continuation_wk : Fn where
  params := [n_g_wk, n_fmesh, n_n_points, n_freq_offset]
  body :=
    block [
      .use [n_g_wk],
      .bind [n_wmesh],
      .use [n_g_wk],
      .bind [n_kmesh],
      .use [n_Gf, n_MeshProduct, n_fmesh, n_kmesh, n_g_wk],
      .bind [n_g_fk],
      .use [n_kmesh],
      .loop .any
        (block [
          .bind [n_k],
          .use [n_g_fk, n_k],
          .bind [n_g_f],
          .use [n_type, n_wmesh, n_MeshDLRImFreq],
          .ite
            (block [
              .use [n_Gf, n_wmesh, n_g_wk],
              .bind [n_g_w],
              .use [n_g_wk, n_k, n_g_w]])
            (block [
              .use [n_g_wk, n_k],
              .bind [n_g_w]]),
          .use [n_len, n_g_wk],
          .ite
            (block [
              .use [n_gf_tensor_to_matrix, n_g_w],
              .bind [n_g_w],
              .use [n_gf_tensor_to_matrix, n_g_f],
              .bind [n_g_f]])
            (.skip),
          .use [n_type, n_g_w, n_MeshDLRImFreq],
          .ite
            (block [
              .use [n_make_gf_dlr, n_g_w],
              .bind [n_g_c],
              .use [n_MeshImFreq, n_g_w, n_g_w, n_n_points],
              .bind [n_small_mesh],
              .use [n_dlr_on_imfreq, n_g_c, n_small_mesh],
              .bind [n_g_w]])
            (.skip),
          .use [n_g_f, n_g_w, n_n_points, n_freq_offset, n_len, n_g_wk],
          .ite
            (block [
              .use [n_gf_matrix_to_tensor, n_g_f, n_g_wk],
              .bind [n_g_f],
              .use [n_g_f, n_g_fk, n_k]])
            (.skip)])
        (.skip),
      .use [n_g_fk],
      .ret]

/-- lattice_utils.py, all code of the module; the functions f_strip_sigma, f_bubble_setup, f_chi0_w0k_tau_bubble are treated separately -/
def mod : Mod where
  top :=
    block [
      .bind [n_itertools],
      .bind [n_multiprocessing],
      .bind [n_np],
      .bind [n_mpi],
      .bind [n_Gf],
      .bind [n_Idx],
      .bind [n_MeshImFreq],
      .bind [n_MeshDLRImFreq],
      .bind [n_MeshProduct],
      .bind [n_MeshBrZone],
      .bind [n_make_gf_dlr],
      .bind [n_BrillouinZone],
      .bind [n_tprf_banner],
      .bind [n_lattice_dyson_g0_wk],
      .bind [n_lattice_dyson_g_wk],
      .bind [n_fourier_wk_to_wr],
      .bind [n_fourier_wr_to_tr],
      .bind [n_chi0_tr_from_grt_PH],
      .bind [n_chi0_wr_from_grt_PH],
      .bind [n_chi0_w0r_from_grt_PH],
      .bind [n_chi_wr_from_chi_tr],
      .bind [n_chi_w0r_from_chi_tr],
      .bind [n_chi_wk_from_chi_wr],
      .bind [n_dlr_on_imfreq],
      .bind [n_add_fake_bosonic_mesh],
      .bind [n_put_gf_on_mesh],
      .bind [n_strip_sigma],
      .bind [n_bubble_setup],
      .bind [n_imtime_bubble_chi0_wk],
      .bind [n_chi_contraction],
      .bind [n_chi0_w0k_tau_bubble],
      .bind [n_ek_tb_dispersion_on_bzmesh],
      .bind [n_get_relative_k_from_absolute],
      .bind [n_get_kidx_from_k_vec_relative],
      .bind [n_get_k_components_from_k_vec],
      .bind [n_cluster_mesh_fourier_interpolation],
      .bind [n_get_abs_k_chi_interpolator],
      .bind [n_get_rel_k_chi_interpolator],
      .bind [n_extend_data_on_boundary],
      .bind [n_k_space_path],
      .bind [n_gf_tensor_to_matrix],
      .bind [n_gf_matrix_to_tensor],
      .bind [n_pade_analytical_continuation_wk]]
  fns := [f_add_fake_bosonic_mesh, f_put_gf_on_mesh, f_imtime_bubble_chi0_wk, f_chi_contraction, f_ek_tb_dispersion_on_bzmesh,
    f_get_relative_k_from_absolute, f_get_kidx_from_k_vec_relative, f_get_k_components_from_k_vec,
    f_cluster_mesh_fourier_interpolation, f_get_abs_k_chi_interpolator, f_get_rel_k_chi_interpolator, f_extend_data_on_boundary,
    f_k_space_path, f_gf_tensor_to_matrix, f_gf_matrix_to_tensor, f_pade_analytical_continuation_wk]

end Verif.Names.LatticeUtils
