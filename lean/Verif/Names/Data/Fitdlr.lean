import Verif.Names.Data.Ids

/-!
# `python/triqs_tprf/fitdlr.py`

Written by `/verif/tools/names_extract.py`.
-/

set_option linter.style.nameCheck false

namespace Verif.Names.Fitdlr

/-- fitdlr.py:30-103 `fitdlr` -/
def f_fitdlr : Fn where
  params := [n_dlr_mesh, n_G_tau, n_H, n_fundamental_operators, n_symmetrizer, n_discontinuity, n_density, n_realvalued, n_ftol, n_verbose]
  body :=
    block [
      .use [n_G_tau],
      .bind [n_beta],
      .use [n_G_tau],
      .bind [n_G_iaa],
      .use [n_np, n_G_tau],
      .ite
        (.use [n_float])
        (.skip),
      .bind [n_tau_i],
      .bind [n_get_rpa_tensor],
      .bind [n_quadratic_matrix_from_operator],
      .use [n_quadratic_matrix_from_operator, n_H, n_fundamental_operators],
      .bind [n_h_ab],
      .use [n_get_rpa_tensor, n_H, n_fundamental_operators],
      .bind [n_U_abcd],
      .use [n_triqs_driver, n_dlr_mesh],
      .bind [n_dd],
      .use [n_constrained_lstsq_dlr_from_tau, n_dd, n_h_ab, n_U_abcd, n_tau_i, n_G_iaa, n_beta, n_symmetrizer, n_discontinuity, n_density,
        n_realvalued, n_ftol],
      .bind [n_G_xaa_sym, n_sol],
      .use [n_verbose],
      .ifv n_verbose
        (.use [n_print, n_sol, n_print, n_sol, n_sol, n_sol, n_sol, n_print, n_sol, n_sol, n_sol])
        (.skip),
      .bind [n_Gf],
      .use [n_Gf, n_dlr_mesh, n_G_tau],
      .bind [n_G_c],
      .use [n_G_xaa_sym, n_G_c, n_G_c, n_sol],
      .ret]

/-- fitdlr.py:106-178 `triqs_driver` (class body) -/
def f_triqs_driver : Fn where
  params := []
  isClass := true
  body :=
    block [
      .bind [n___init__],
      .bind [n_initial_guess_from_tau_interp1d],
      .bind [n_initial_guess_from_tau_lstsq],
      .bind [n_initial_guess_from_tau],
      .bind [n_eval_dlr_tau],
      .bind [n___len__],
      .bind [n___eval_T]]

/-- fitdlr.py:108-127 `__init__` -/
def f_triqs_driver___init__ : Fn where
  params := [n_self, n_cmesh]
  body :=
    block [
      .bind [n_Gf],
      .bind [n_MeshDLR],
      .use [n_type, n_cmesh, n_MeshDLR],
      .ite
        (.raise)
        (.skip),
      .use [n_np, n_cmesh],
      .ite
        (.use [n_complex])
        (.skip),
      .bind [n_w_x],
      .use [n_Gf, n_cmesh, n_len, n_cmesh],
      .bind [n_gc],
      .use [n_np, n_len, n_cmesh, n_gc, n_gc],
      .bind [n_K_0_x],
      .use [n_gc, n_cmesh],
      .bind [n_K_beta_x],
      .use [n_K_beta_x, n_self, n_K_0_x, n_K_beta_x, n_w_x, n_cmesh, n_self, n_self, n_cmesh, n_self]]

/-- fitdlr.py:129-144 `initial_guess_from_tau_interp1d` -/
def f_triqs_driver_initial_guess_from_tau_interp1d : Fn where
  params := [n_self, n_tau_i, n_G_iaa, n_beta]
  body :=
    block [
      .bind [n_Gf],
      .bind [n_make_gf_dlr],
      .use [n_Gf, n_self, n_G_iaa],
      .bind [n_G_c],
      .use [n_make_gf_dlr_imtime, n_G_c],
      .bind [n_G_t],
      .bind [n_interp1d],
      .use [n_interp1d, n_tau_i, n_G_iaa],
      .bind [n_G],
      .use [n_G_t],
      .loop .any
        (block [
          .bind [n_tau],
          .use [n_G, n_float, n_tau, n_G_t, n_tau]])
        (.skip),
      .use [n_make_gf_dlr, n_G_t],
      .bind [n_G_x],
      .use [n_np, n_G_x],
      .bind [n_g0_xaa],
      .use [n_g0_xaa],
      .ret]

/-- fitdlr.py:146-152 `initial_guess_from_tau_lstsq` -/
def f_triqs_driver_initial_guess_from_tau_lstsq : Fn where
  params := [n_self, n_tau_i, n_G_iaa, n_beta]
  body :=
    block [
      .use [n_G_iaa],
      .bind [n_n, n_a, n_b],
      .use [n_self, n_tau_i],
      .bind [n_T_ix],
      .use [n_G_iaa, n_n, n_a, n_b],
      .bind [n_b_iA],
      .use [n_np, n_T_ix, n_b_iA],
      .bind [n_x_xA],
      .use [n_x_xA, n_T_ix, n_a, n_b],
      .bind [n_g0_xaa],
      .use [n_g0_xaa],
      .ret]

/-- fitdlr.py:154-155 `initial_guess_from_tau` -/
def f_triqs_driver_initial_guess_from_tau : Fn where
  params := [n_self, n_tau_i, n_G_iaa, n_beta]
  body :=
    block [
      .use [n_self, n_tau_i, n_G_iaa, n_beta],
      .ret]

/-- fitdlr.py:157-160 `eval_dlr_tau` -/
def f_triqs_driver_eval_dlr_tau : Fn where
  params := [n_self, n_g_xaa, n_tau_i, n_beta]
  body :=
    block [
      .use [n_self, n_tau_i],
      .bind [n_eval_T],
      .use [n_np, n_eval_T, n_g_xaa],
      .bind [n_g_iaa],
      .use [n_g_iaa],
      .ret]

/-- fitdlr.py:162-162 `__len__` -/
def f_triqs_driver___len__ : Fn where
  params := [n_self]
  body :=
    block [
      .use [n_len, n_self],
      .ret]

/-- fitdlr.py:164-178 `__eval_T` -/
def f_triqs_driver___eval_T : Fn where
  params := [n_self, n_tau_i]
  body :=
    block [
      .use [n_hasattr, n_self],
      .ite
        (block [
          .use [n_self],
          .bind [n_cmesh],
          .bind [n_Gf],
          .use [n_Gf, n_cmesh, n_len, n_cmesh],
          .bind [n_gc],
          .use [n_np, n_len, n_cmesh, n_gc, n_np, n_len, n_tau_i, n_len, n_cmesh],
          .bind [n_eval_T],
          .use [n_enumerate, n_tau_i],
          .loop .any
            (block [
              .bind [n_idx, n_t],
              .use [n_gc, n_t, n_eval_T, n_idx]])
            (.skip),
          .use [n_eval_T, n_tau_i, n_self, n_self]])
        (.use [n_np, n_tau_i, n_self]),
      .use [n_self],
      .ret]

/-- fitdlr.py:181-204 `pydlr_driver` (class body) -/
def f_pydlr_driver : Fn where
  params := []
  isClass := true
  body :=
    block [
      .bind [n___init__],
      .bind [n_initial_guess_from_tau],
      .bind [n_eval_dlr_tau],
      .bind [n___len__]]

/-- fitdlr.py:183-194 `__init__` -/
def f_pydlr_driver___init__ : Fn where
  params := [n_self, n_dlr, n_beta]
  body :=
    block [
      .bind [n_dlr_class],
      .bind [n_kernel],
      .use [n_type, n_dlr, n_dlr_class],
      .ite
        (.raise)
        (.skip),
      .use [n_dlr, n_beta, n_self, n_self, n_kernel, n_np, n_self, n_self, n_kernel, n_np, n_self, n_self, n_beta],
      .bind [n_dK_0_x, n_dK_beta_x],
      .use [n_dK_0_x, n_dK_beta_x, n_self, n_self]]

/-- fitdlr.py:196-198 `initial_guess_from_tau` -/
def f_pydlr_driver_initial_guess_from_tau : Fn where
  params := [n_self, n_tau_i, n_G_iaa, n_beta]
  body :=
    block [
      .use [n_self, n_tau_i, n_G_iaa, n_beta],
      .bind [n_g0_xaa],
      .use [n_g0_xaa],
      .ret]

/-- fitdlr.py:200-202 `eval_dlr_tau` -/
def f_pydlr_driver_eval_dlr_tau : Fn where
  params := [n_self, n_g_xaa, n_tau_i, n_beta]
  body :=
    block [
      .use [n_self, n_g_xaa, n_tau_i, n_beta],
      .bind [n_g_iaa],
      .use [n_g_iaa],
      .ret]

/-- fitdlr.py:204-204 `__len__` -/
def f_pydlr_driver___len__ : Fn where
  params := [n_self]
  body :=
    block [
      .use [n_len, n_self],
      .ret]

/-- fitdlr.py:207-398 `constrained_lstsq_dlr_from_tau` -/
def f_constrained_lstsq_dlr_from_tau : Fn where
  params := [n_dlr, n_h_ab, n_U_abcd, n_tau_i, n_g_iaa, n_beta, n_positivity, n_discontinuity, n_density, n_realvalued, n_ftol, n_symmetrizer]
  flags := [n_density]
  body :=
    block [
      .use [n_np, n_h_ab, n_h_ab, n_len, n_dlr],
      .bind [n_nx],
      .use [n_g_iaa],
      .bind [n_ni, n_no, n__],
      .use [n_nx, n_no, n_no],
      .bind [n_shape_xaa],
      .use [n_no, n_no],
      .bind [n_N],
      .use [n_realvalued],
      .ifv n_realvalued
        (block [
          .use [n_float],
          .bind [n_dtype],
          .use [n_np, n_g_iaa, n_dtype],
          .bind [n_g_iaa],
          .use [n_nx, n_no, n_N],
          .bind [n_nX],
          .clo [n_no, n_nx],
          .bind [n_merge_re_im],
          .clo [n_np, n_float],
          .bind [n_split_re_im]])
        (block [
          .use [n_complex],
          .bind [n_dtype],
          .use [n_nx, n_no, n_N],
          .bind [n_nX],
          .clo [n_no, n_nx],
          .bind [n_merge_re_im],
          .bind [n_split_re_im]]),
      .use [n_symmetrizer],
      .ite
        (.use [n_symmetrizer])
        (.use [n_Symmetrizer, n_nx, n_no]),
      .bind [n_sym],
      .clo [n_dtype, n_merge_re_im, n_no, n_nx, n_sym],
      .bind [n_g_from_x],
      .clo [n_split_re_im, n_sym],
      .bind [n_x_from_g],
      .bind [n_constraints],
      .use [n_positivity],
      .ifv n_positivity
        (block [
          .use [n_sym],
          .loop .any
            (block [
              .bind [n_i],
              .use [n_np, n_shape_xaa, n_dtype],
              .bind [n_A_xaa],
              .use [n_A_xaa, n_i, n_i, n_x_from_g, n_A_xaa],
              .bind [n_A_nX],
              .use [n_LinearConstraint, n_A_nX, n_float],
              .bind [n_disc_constr],
              .use [n_constraints, n_disc_constr]])
            (.skip)])
        (.skip),
      .use [n_discontinuity],
      .ifv n_discontinuity
        (block [
          .use [n_sym],
          .loop .any
            (block [
              .bind [n_i],
              .use [n_np, n_shape_xaa, n_dtype],
              .bind [n_A_xaa],
              .use [n_A_xaa, n_i, n_i, n_x_from_g, n_A_xaa],
              .bind [n_A_nX],
              .use [n_dlr],
              .bind [n_bound],
              .use [n_LinearConstraint, n_A_nX, n_bound, n_bound],
              .bind [n_disc_constr],
              .use [n_constraints, n_disc_constr]])
            (.skip),
          .use [n_zip, n_sym],
          .loop .any
            (block [
              .bind [n_i, n_j],
              .use [n_np, n_shape_xaa, n_dtype],
              .bind [n_A_xaa],
              .use [n_A_xaa, n_i, n_j, n_x_from_g, n_A_xaa],
              .bind [n_A_nX],
              .bind [n_bound],
              .use [n_LinearConstraint, n_A_nX, n_bound, n_bound],
              .bind [n_disc_constr],
              .use [n_constraints, n_disc_constr, n_realvalued],
              .ifv n_realvalued
                (.skip)
                (block [
                  .use [n_A_xaa, n_i, n_j, n_x_from_g, n_A_xaa],
                  .bind [n_A_nX],
                  .bind [n_bound],
                  .use [n_LinearConstraint, n_A_nX, n_bound, n_bound],
                  .bind [n_disc_constr],
                  .use [n_constraints, n_disc_constr]])])
            (.skip)])
        (.skip),
      .use [n_density],
      .ifv n_density
        (block [
          .use [n_np, n_U_abcd, n_dlr],
          .bind [n_U_ab_xcd],
          .use [n_U_ab_xcd, n_no, n_no, n_nx, n_no, n_no],
          .bind [n_U_nX],
          .use [n_np, n_no, n_no],
          .bind [n_I],
          .use [n_np, n_dlr, n_I, n_no, n_no, n_nx, n_no, n_no],
          .bind [n_dK_nX],
          .use [n_dK_nX, n_U_nX],
          .bind [n_A_nX],
          .clo [n_split_re_im, n_sym],
          .bind [n_mat_vec],
          .clo [n_A_nX, n_g_from_x, n_mat_vec, n_no],
          .bind [n_density_constraint_function],
          .use [n_mat_vec, n_h_ab],
          .bind [n_density_bound],
          .use [n_NonlinearConstraint, n_density_constraint_function, n_density_bound, n_density_bound],
          .bind [n_density_constr],
          .use [n_constraints, n_density_constr]])
        (.skip),
      .clo [n_beta, n_dlr, n_g_from_x, n_g_iaa, n_tau_i],
      .bind [n_greens_function_difference],
      .clo [n_greens_function_difference],
      .bind [n_target_function],
      .use [n_dlr, n_tau_i, n_g_iaa, n_beta],
      .bind [n_g0_xaa],
      .use [n_x_from_g, n_g0_xaa],
      .bind [n_x0],
      .use [n_minimize, n_target_function, n_x0, n_constraints, n_dict, n_ftol],
      .bind [n_sol],
      .use [n_np, n_np, n_greens_function_difference, n_sol, n_sol, n_g_from_x, n_sol, n_sol, n_np, n_sol, n_sol, n_np, n_np, n_sol, n_dlr, n_np,
        n_no, n_sol, n_float, n_sol, n_density],
      .ifv n_density
        (.use [n_np, n_np, n_density_bound, n_density_constraint_function, n_sol, n_sol])
        (.skip),
      .use [n_sol, n_sol],
      .ret]

/-- fitdlr.py:269-270 `merge_re_im` -/
def f_constrained_lstsq_dlr_from_tau_merge_re_im : Fn where
  params := [n_x]
  outer := [n_no, n_nx]
  body :=
    block [
      .use [n_x, n_nx, n_no, n_x, n_nx, n_no],
      .ret]

/-- fitdlr.py:277-281 `merge_re_im` -/
def f_constrained_lstsq_dlr_from_tau_merge_re_im' : Fn where
  params := [n_x]
  outer := [n_no, n_nx]
  body :=
    block [
      .use [n_x, n_nx, n_no, n_x, n_nx, n_no],
      .bind [n_x_d, n_x_u],
      .use [n_np, n_x_u],
      .bind [n_re, n_im],
      .use [n_re, n_im],
      .bind [n_x_u],
      .use [n_x_d, n_x_u],
      .ret]

/-- fitdlr.py:283-287 `split_re_im` -/
def f_constrained_lstsq_dlr_from_tau_split_re_im : Fn where
  params := [n_x_d, n_x_u]
  body :=
    block [
      .use [n_np, n_np, n_x_d, n_float, n_np, n_x_u, n_float, n_np, n_x_u, n_float],
      .ret]

/-- fitdlr.py:293-298 `g_from_x` -/
def f_constrained_lstsq_dlr_from_tau_g_from_x : Fn where
  params := [n_x]
  outer := [n_dtype, n_merge_re_im, n_no, n_nx, n_sym]
  body :=
    block [
      .use [n_merge_re_im, n_x],
      .bind [n_x_d, n_x_u],
      .use [n_np, n_nx, n_no, n_no, n_dtype],
      .bind [n_g_xaa],
      .use [n_sym, n_g_xaa, n_x_u, n_sym, n_g_xaa, n_x_d, n_g_xaa],
      .ret]

/-- fitdlr.py:300-304 `x_from_g` -/
def f_constrained_lstsq_dlr_from_tau_x_from_g : Fn where
  params := [n_g_xaa]
  outer := [n_split_re_im, n_sym]
  body :=
    block [
      .use [n_sym, n_g_xaa],
      .bind [n_x_d],
      .use [n_sym, n_g_xaa],
      .bind [n_x_u],
      .use [n_split_re_im, n_x_d, n_x_u],
      .bind [n_x],
      .use [n_x],
      .ret]

/-- fitdlr.py:354-358 `mat_vec` -/
def f_constrained_lstsq_dlr_from_tau_mat_vec : Fn where
  params := [n_mat]
  outer := [n_split_re_im, n_sym]
  body :=
    block [
      .use [n_sym, n_mat],
      .bind [n_v_d],
      .use [n_sym, n_mat],
      .bind [n_v_u],
      .use [n_split_re_im, n_v_d, n_v_u],
      .bind [n_v],
      .use [n_v],
      .ret]

/-- fitdlr.py:360-364 `density_constraint_function` -/
def f_constrained_lstsq_dlr_from_tau_density_constraint_function : Fn where
  params := [n_x]
  outer := [n_A_nX, n_g_from_x, n_mat_vec, n_no]
  body :=
    block [
      .use [n_g_from_x, n_x],
      .bind [n_g],
      .use [n_A_nX, n_g, n_no, n_no],
      .bind [n_mat],
      .use [n_mat_vec, n_mat],
      .bind [n_vec],
      .use [n_vec],
      .ret]

/-- fitdlr.py:371-375 `greens_function_difference` -/
def f_constrained_lstsq_dlr_from_tau_greens_function_difference : Fn where
  params := [n_x]
  outer := [n_beta, n_dlr, n_g_from_x, n_g_iaa, n_tau_i]
  body :=
    block [
      .use [n_g_from_x, n_x],
      .bind [n_g_xaa],
      .use [n_dlr, n_g_xaa, n_tau_i, n_beta],
      .bind [n_g_in_iaa],
      .use [n_g_in_iaa, n_g_iaa],
      .bind [n_err_iaa],
      .use [n_err_iaa],
      .ret]

/-- fitdlr.py:377-379 `target_function` -/
def f_constrained_lstsq_dlr_from_tau_target_function : Fn where
  params := [n_x]
  outer := [n_greens_function_difference]
  body :=
    block [
      .use [n_greens_function_difference, n_x],
      .bind [n_y],
      .use [n_np, n_y],
      .ret]

/-- fitdlr.py:401-428 `Symmetrizer` (class body) -/
def f_Symmetrizer : Fn where
  params := []
  isClass := true
  body :=
    block [
      .bind [n___init__],
      .bind [n_get_x_d],
      .bind [n_set_x_d],
      .bind [n_get_x_u],
      .bind [n_set_x_u],
      .bind [n_get_diag_indices],
      .bind [n_get_triu_indices]]

/-- fitdlr.py:403-408 `__init__` -/
def f_Symmetrizer___init__ : Fn where
  params := [n_self, n_nx, n_no]
  body :=
    .use [n_no, n_no, n_self, n_nx, n_no, n_self, n_self, n_np, n_self, n_self, n_np, n_no, n_self, n_np, n_no, n_self]

/-- fitdlr.py:410-412 `get_x_d` -/
def f_Symmetrizer_get_x_d : Fn where
  params := [n_self, n_g_xaa]
  body :=
    block [
      .use [n_g_xaa, n_self, n_self],
      .bind [n_x_d],
      .use [n_x_d],
      .ret]

/-- fitdlr.py:414-416 `set_x_d` -/
def f_Symmetrizer_set_x_d : Fn where
  params := [n_self, n_g_xaa, n_x_d]
  body :=
    block [
      .use [n_x_d, n_self, n_self, n_g_xaa, n_self, n_self, n_g_xaa],
      .ret]

/-- fitdlr.py:418-420 `get_x_u` -/
def f_Symmetrizer_get_x_u : Fn where
  params := [n_self, n_g_xaa]
  body :=
    block [
      .use [n_g_xaa, n_self, n_self],
      .bind [n_x_u],
      .use [n_x_u],
      .ret]

/-- fitdlr.py:422-425 `set_x_u` -/
def f_Symmetrizer_set_x_u : Fn where
  params := [n_self, n_g_xaa, n_x_u]
  body :=
    block [
      .use [n_x_u, n_self, n_self, n_g_xaa, n_self, n_self, n_g_xaa, n_self, n_self, n_g_xaa, n_self, n_self, n_g_xaa],
      .ret]

/-- fitdlr.py:427-427 `get_diag_indices` -/
def f_Symmetrizer_get_diag_indices : Fn where
  params := [n_self]
  body :=
    block [
      .use [n_self],
      .ret]

/-- fitdlr.py:428-428 `get_triu_indices` -/
def f_Symmetrizer_get_triu_indices : Fn where
  params := [n_self]
  body :=
    block [
      .use [n_self],
      .ret]

/-- fitdlr.py:431-432 `unique_non_zero` -/
def f_unique_non_zero : Fn where
  params := [n_arr]
  body :=
    block [
      .use [n_np, n_arr],
      .ret]

/-- fitdlr.py:435-505 `BlockSymmetrizer` (class body) -/
def f_BlockSymmetrizer : Fn where
  params := []
  isClass := true
  body :=
    block [
      .bind [n___init__],
      .bind [n_get_x_d],
      .bind [n_set_x_d],
      .bind [n_get_x_u],
      .bind [n_set_x_u],
      .bind [n_get_diag_indices],
      .bind [n_get_triu_indices]]

/-- fitdlr.py:437-480 `__init__` -/
def f_BlockSymmetrizer___init__ : Fn where
  params := [n_self, n_nx, n_block_mat]
  body :=
    block [
      .use [n_len, n_block_mat],
      .ite
        (.raise)
        (.skip),
      .use [n_block_mat, n_block_mat],
      .ite
        (.raise)
        (.skip),
      .use [n_block_mat],
      .bind [n_no],
      .use [n_no, n_no, n_self, n_nx, n_no, n_self, n_self, n_unique_non_zero, n_block_mat],
      .bind [n_term_idxs],
      .use [n_np, n_no],
      .bind [n_diag_idxs],
      .use [n_unique_non_zero, n_block_mat, n_diag_idxs, n_diag_idxs],
      .bind [n_diag_terms],
      .use [n_np, n_no],
      .bind [n_triu_idxs],
      .use [n_unique_non_zero, n_block_mat, n_triu_idxs, n_triu_idxs],
      .bind [n_triu_terms],
      .bind [n_diag_term_idxs],
      .use [n_diag_terms],
      .loop .any
        (block [
          .bind [n_diag_term],
          .bind [n_idxs],
          .use [n_range, n_no],
          .loop .any
            (block [
              .bind [n_i],
              .use [n_block_mat, n_i, n_i, n_diag_term],
              .ite
                (.use [n_idxs, n_i])
                (.skip)])
            (.skip),
          .use [n_diag_term_idxs, n_idxs]])
        (.skip),
      .bind [n_triu_term_idxs],
      .use [n_triu_terms],
      .loop .any
        (block [
          .bind [n_triu_term],
          .bind [n_idxs],
          .use [n_zip, n_triu_idxs, n_triu_idxs],
          .loop .any
            (block [
              .bind [n_i, n_j],
              .use [n_block_mat, n_i, n_j, n_triu_term],
              .ite
                (.use [n_idxs, n_i, n_j])
                (.skip)])
            (.skip),
          .use [n_triu_term_idxs, n_idxs, n_print, n_triu_term, n_idxs]])
        (.skip),
      .use [n_diag_term_idxs, n_self, n_list, n_zip, n_triu_term_idxs, n_self, n_triu_term_idxs],
      .ite
        (.use [n_list, n_zip])
        (.skip),
      .bind [n_triu_term_idxs],
      .use [n_diag_terms, n_diag_term_idxs, n_self, n_self, n_triu_terms, n_triu_term_idxs, n_self, n_self, n_len, n_self],
      .ite
        (.use [n_self])
        (.skip)]

/-- fitdlr.py:482-484 `get_x_d` -/
def f_BlockSymmetrizer_get_x_d : Fn where
  params := [n_self, n_g_xaa]
  body :=
    block [
      .use [n_g_xaa, n_self, n_self],
      .bind [n_x_d],
      .use [n_x_d],
      .ret]

/-- fitdlr.py:486-491 `set_x_d` -/
def f_BlockSymmetrizer_set_x_d : Fn where
  params := [n_self, n_g_xaa, n_x_d]
  body :=
    block [
      .use [n_g_xaa],
      .bind [n_nx],
      .use [n_len, n_x_d, n_nx],
      .bind [n_no],
      .use [n_enumerate, n_self],
      .loop .any
        (block [
          .bind [n_term_idx, n_diag_idxs],
          .use [n_x_d, n_nx, n_no, n_term_idx, n_g_xaa, n_diag_idxs, n_diag_idxs]])
        (.skip),
      .use [n_g_xaa],
      .ret]

/-- fitdlr.py:493-495 `get_x_u` -/
def f_BlockSymmetrizer_get_x_u : Fn where
  params := [n_self, n_g_xaa]
  body :=
    block [
      .use [n_g_xaa, n_self, n_self],
      .bind [n_x_u],
      .use [n_x_u],
      .ret]

/-- fitdlr.py:497-502 `set_x_u` -/
def f_BlockSymmetrizer_set_x_u : Fn where
  params := [n_self, n_g_xaa, n_x_u]
  body :=
    block [
      .use [n_enumerate, n_self],
      .loop .any
        (block [
          .bind [n_term_idx, n_triu_idxs],
          .use [n_x_u, n_self, n_self, n_term_idx, n_g_xaa, n_triu_idxs, n_triu_idxs]])
        (.skip),
      .use [n_g_xaa, n_np, n_g_xaa],
      .bind [n_g_xaa],
      .use [n_g_xaa],
      .ret]

/-- fitdlr.py:504-504 `get_diag_indices` -/
def f_BlockSymmetrizer_get_diag_indices : Fn where
  params := [n_self]
  body :=
    block [
      .use [n_self],
      .ret]

/-- fitdlr.py:505-505 `get_triu_indices` -/
def f_BlockSymmetrizer_get_triu_indices : Fn where
  params := [n_self]
  body :=
    block [
      .use [n_self],
      .ret]

/-- fitdlr.py, all code of the module; the functions f_triqs_driver_initial_guess_from_tau_interp1d are treated separately -/
def mod : Mod where
  top :=
    block [
      .bind [n_np],
      .bind [n_minimize, n_LinearConstraint, n_NonlinearConstraint],
      .bind [n_fitdlr],
      .bind [n_triqs_driver],
      .bind [n_pydlr_driver],
      .bind [n_constrained_lstsq_dlr_from_tau],
      .bind [n_Symmetrizer],
      .bind [n_unique_non_zero],
      .bind [n_BlockSymmetrizer]]
  fns := [f_fitdlr, f_triqs_driver, f_triqs_driver___init__, f_triqs_driver_initial_guess_from_tau_lstsq,
    f_triqs_driver_initial_guess_from_tau, f_triqs_driver_eval_dlr_tau, f_triqs_driver___len__, f_triqs_driver___eval_T,
    f_pydlr_driver, f_pydlr_driver___init__, f_pydlr_driver_initial_guess_from_tau, f_pydlr_driver_eval_dlr_tau,
    f_pydlr_driver___len__, f_constrained_lstsq_dlr_from_tau, f_constrained_lstsq_dlr_from_tau_merge_re_im,
    f_constrained_lstsq_dlr_from_tau_merge_re_im', f_constrained_lstsq_dlr_from_tau_split_re_im,
    f_constrained_lstsq_dlr_from_tau_g_from_x, f_constrained_lstsq_dlr_from_tau_x_from_g,
    f_constrained_lstsq_dlr_from_tau_mat_vec, f_constrained_lstsq_dlr_from_tau_density_constraint_function,
    f_constrained_lstsq_dlr_from_tau_greens_function_difference, f_constrained_lstsq_dlr_from_tau_target_function, f_Symmetrizer,
    f_Symmetrizer___init__, f_Symmetrizer_get_x_d, f_Symmetrizer_set_x_d, f_Symmetrizer_get_x_u, f_Symmetrizer_set_x_u,
    f_Symmetrizer_get_diag_indices, f_Symmetrizer_get_triu_indices, f_unique_non_zero, f_BlockSymmetrizer,
    f_BlockSymmetrizer___init__, f_BlockSymmetrizer_get_x_d, f_BlockSymmetrizer_set_x_d, f_BlockSymmetrizer_get_x_u,
    f_BlockSymmetrizer_set_x_u, f_BlockSymmetrizer_get_diag_indices, f_BlockSymmetrizer_get_triu_indices]

end Verif.Names.Fitdlr
