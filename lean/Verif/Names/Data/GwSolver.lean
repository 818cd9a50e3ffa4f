import Verif.Names.Data.Ids

/-!
# `python/triqs_tprf/gw_solver.py`

Written by `/verif/tools/names_extract.py`.
-/

set_option linter.style.nameCheck false

namespace Verif.Names.GwSolver

/-- gw_solver.py:68-423 `GWSolver` (class body) -/
def f_GWSolver : Fn where
  params := []
  isClass := true
  body :=
    block [
      .bind [n___init__],
      .use [n_timer],
      .bind [n_calc_real_space],
      .use [n_timer, n_dict],
      .bind [n_calc_real_freq],
      .bind [n_calc_rho_loc],
      .bind [n_calc_total_density],
      .use [n_timer],
      .bind [n_calc_rho_k],
      .use [n_timer],
      .bind [n_calc_rho_r],
      .use [n_timer],
      .bind [n_hartree_sigma],
      .use [n_timer],
      .bind [n_fock_sigma],
      .use [n_timer],
      .bind [n_gw_dynamic_sigma],
      .use [n_timer],
      .bind [n_polarization],
      .use [n_timer],
      .bind [n_screened_interaction],
      .use [n_timer],
      .bind [n_susceptibiltiy],
      .use [n_timer],
      .bind [n_dynamic_and_static_interaction],
      .use [n_timer],
      .bind [n_dyson_equation],
      .bind [n__dyson_equation_dispatch],
      .bind [n_solve_iter],
      .bind [n_get_local_density_matrix],
      .bind [n_get_total_density],
      .bind [n___reduce_to_dict__],
      .use [n_classmethod],
      .bind [n___factory_from_dict__],
      .bind [n_logo]]

/-- gw_solver.py:71-106 `__init__` -/
def f_GWSolver___init__ : Fn where
  params := [n_self, n_e_k, n_V_k, n_wmesh, n_mu, n_g_wk, n_N_fix, n_N_tol, n_mu_bracket]
  body :=
    block [
      .use [n_Timer, n_self, n_mpi],
      .ite
        (.use [n_print, n_self, n_print, n_wmesh, n_print, n_len, n_wmesh, n_print, n_len, n_e_k])
        (.skip),
      .use [n_e_k, n_self, n_V_k, n_self, n_make_gf_from_fourier, n_V_k, n_self, n_wmesh, n_self, n_N_fix, n_self, n_N_tol, n_self, n_mu],
      .ite
        (.use [n_mu])
        (.skip),
      .use [n_self, n_mu_bracket],
      .ite
        (.use [n_np, n_e_k, n_e_k, n_self])
        (.use [n_mu_bracket, n_self]),
      .use [n_self, n_self, n_e_k, n_wmesh, n_N_fix, n_self, n_self, n_g_wk],
      .ite
        (.use [n_self, n_self, n_self, n_self])
        (.use [n_g_wk, n_self]),
      .use [n_self, n_self, n_self]]

/-- gw_solver.py:110-130 `calc_real_space` -/
def f_GWSolver_calc_real_space : Fn where
  params := [n_self]
  body :=
    block [
      .use [n_mpi],
      .ite
        (.use [n_print])
        (.skip),
      .bind [n_fourier_wk_to_wr],
      .bind [n_chi_wr_from_chi_wk],
      .use [n_fourier_wk_to_wr, n_self, n_self, n_fourier_wk_to_wr, n_self, n_self, n_fourier_wk_to_wr, n_self, n_self, n_chi_wr_from_chi_wk, n_self,
        n_self, n_chi_wr_from_chi_wk, n_self, n_self, n_self],
      .bind [n_V_wk],
      .use [n_self],
      .bind [n_bmesh],
      .use [n_V_wk, n_bmesh],
      .loop .any
        (block [
          .bind [n_w],
          .use [n_self, n_V_wk, n_w]])
        (.skip),
      .use [n_V_wk, n_self, n_chi_wr_from_chi_wk, n_self, n_self]]

/-- gw_solver.py:134-170 `calc_real_freq` -/
def f_GWSolver_calc_real_freq : Fn where
  params := [n_self, n_fmesh, n_fbmesh, n_opts]
  body :=
    block [
      .use [n_mpi],
      .ite
        (.use [n_print])
        (.skip),
      .use [n_pade_analytical_continuation_wk, n_self, n_fmesh, n_opts, n_self, n_pade_analytical_continuation_wk, n_self, n_fmesh, n_opts, n_self,
        n_pade_analytical_continuation_wk, n_self, n_fmesh, n_opts, n_self, n_ParameterCollection, n_self, n_self, n_self, n_self, n_self, n_self,
        n_self, n_self],
      .bind [n_gw_rf],
      .use [n_fbmesh],
      .ite
        (block [
          .use [n_fmesh],
          .bind [n_fbmesh]])
        (.skip),
      .use [n_hasattr, n_self],
      .ite
        (.use [n_pade_analytical_continuation_wk, n_self, n_fbmesh, n_opts, n_self, n_self, n_gw_rf])
        (.skip),
      .use [n_hasattr, n_self],
      .ite
        (.use [n_pade_analytical_continuation_wk, n_self, n_fbmesh, n_opts, n_self, n_self, n_gw_rf])
        (.skip),
      .use [n_hasattr, n_self],
      .ite
        (.use [n_pade_analytical_continuation_wk, n_self, n_fbmesh, n_opts, n_self, n_self, n_gw_rf])
        (.skip),
      .use [n_hasattr, n_self],
      .ite
        (.use [n_pade_analytical_continuation_wk, n_self, n_fbmesh, n_opts, n_self, n_self, n_gw_rf])
        (.skip),
      .use [n_gw_rf],
      .ret]

/-- gw_solver.py:173-175 `calc_rho_loc` -/
def f_GWSolver_calc_rho_loc : Fn where
  params := [n_self, n_rho_r]
  body :=
    block [
      .use [n_np, n_rho_r, n_Idx],
      .bind [n_rho_loc],
      .use [n_rho_loc],
      .ret]

/-- gw_solver.py:178-180 `calc_total_density` -/
def f_GWSolver_calc_total_density : Fn where
  params := [n_self, n_rho_loc]
  body :=
    block [
      .use [n_np, n_np, n_rho_loc],
      .bind [n_N],
      .use [n_N],
      .ret]

/-- gw_solver.py:184-185 `calc_rho_k` -/
def f_GWSolver_calc_rho_k : Fn where
  params := [n_self, n_g_wk]
  body :=
    block [
      .use [n_rho_k_from_g_wk, n_g_wk],
      .ret]

/-- gw_solver.py:189-192 `calc_rho_r` -/
def f_GWSolver_calc_rho_r : Fn where
  params := [n_self, n_g_wk]
  body :=
    block [
      .use [n_self, n_g_wk],
      .bind [n_rho_k],
      .use [n_make_gf_from_fourier, n_rho_k],
      .bind [n_rho_r],
      .use [n_rho_r],
      .ret]

/-- gw_solver.py:196-197 `hartree_sigma` -/
def f_GWSolver_hartree_sigma : Fn where
  params := [n_self, n_V_k, n_rho_r]
  body :=
    block [
      .use [n_make_gf_from_fourier, n_hartree_sigma, n_V_k, n_rho_r],
      .ret]

/-- gw_solver.py:201-202 `fock_sigma` -/
def f_GWSolver_fock_sigma : Fn where
  params := [n_self, n_V_r, n_rho_r]
  body :=
    block [
      .use [n_make_gf_from_fourier, n_fock_sigma, n_V_r, n_rho_r],
      .ret]

/-- gw_solver.py:206-225 `gw_dynamic_sigma` -/
def f_GWSolver_gw_dynamic_sigma : Fn where
  params := [n_self, n_W_dyn_wk, n_g_wk]
  body :=
    block [
      .use [n_fourier_wk_to_wr, n_g_wk],
      .bind [n_g_wr],
      .use [n_fourier_wr_to_tr, n_g_wr],
      .bind [n_g_tr],
      .del n_g_wr,
      .use [n_chi_wr_from_chi_wk, n_W_dyn_wk],
      .bind [n_W_dyn_wr],
      .use [n_chi_tr_from_chi_wr, n_W_dyn_wr],
      .bind [n_W_dyn_tr],
      .del n_W_dyn_wr,
      .use [n_gw_dynamic_sigma, n_W_dyn_tr, n_g_tr],
      .bind [n_sigma_dyn_tr],
      .del n_g_tr,
      .del n_W_dyn_tr,
      .use [n_fourier_tr_to_wr, n_sigma_dyn_tr],
      .bind [n_sigma_dyn_wr],
      .del n_sigma_dyn_tr,
      .use [n_fourier_wr_to_wk, n_sigma_dyn_wr],
      .bind [n_sigma_dyn_wk],
      .del n_sigma_dyn_wr,
      .use [n_sigma_dyn_wk],
      .ret]

/-- gw_solver.py:229-232 `polarization` -/
def f_GWSolver_polarization : Fn where
  params := [n_self, n_g_wk]
  body :=
    block [
      .use [n_imtime_bubble_chi0_wk, n_g_wk, n_len, n_self],
      .bind [n_P_wk],
      .use [n_P_wk],
      .ret]

/-- gw_solver.py:236-241 `screened_interaction` -/
def f_GWSolver_screened_interaction : Fn where
  params := [n_self, n_P_wk, n_V_k, n_spinless]
  body :=
    block [
      .use [n_spinless],
      .ifv n_spinless
        (block [
          .use [n_dynamical_screened_interaction_W, n_P_wk, n_V_k],
          .bind [n_W_wk]])
        (block [
          .use [n_dynamical_screened_interaction_W, n_P_wk, n_V_k],
          .bind [n_W_wk]]),
      .use [n_W_wk],
      .ret]

/-- gw_solver.py:245-247 `susceptibiltiy` -/
def f_GWSolver_susceptibiltiy : Fn where
  params := [n_self, n_P_wk, n_W_wk]
  body :=
    block [
      .use [n_generalized_susceptibility, n_W_wk, n_P_wk],
      .bind [n_chi_wk],
      .use [n_chi_wk],
      .ret]

/-- gw_solver.py:251-253 `dynamic_and_static_interaction` -/
def f_GWSolver_dynamic_and_static_interaction : Fn where
  params := [n_self, n_W_wk]
  body :=
    block [
      .use [n_split_into_dynamic_wk_and_constant_k, n_W_wk],
      .bind [n_W_dyn_wk, n_W_stat_k],
      .use [n_W_dyn_wk, n_W_stat_k],
      .ret]

/-- gw_solver.py:257-277 `dyson_equation` -/
def f_GWSolver_dyson_equation : Fn where
  params := [n_self, n_mu, n_e_k, n_sigma_wk, n_wmesh, n_N_fix]
  body :=
    block [
      .use [n_N_fix],
      .ifv n_N_fix
        (block [
          .clo [n_N_fix, n_e_k, n_self, n_sigma_wk, n_wmesh],
          .bind [n_target_function],
          .bind [n_root_scalar],
          .use [n_root_scalar, n_target_function, n_self, n_self],
          .bind [n_sol],
          .use [n_sol],
          .bind [n_mu],
          .use [n_self, n_mu, n_e_k, n_sigma_wk, n_wmesh],
          .bind [n_g_wk]])
        (block [
          .use [n_self, n_mu, n_e_k, n_sigma_wk, n_wmesh],
          .bind [n_g_wk]]),
      .use [n_g_wk, n_mu],
      .ret]

/-- gw_solver.py:264-269 `target_function` -/
def f_GWSolver_dyson_equation_target_function : Fn where
  params := [n_mu]
  outer := [n_N_fix, n_e_k, n_self, n_sigma_wk, n_wmesh]
  body :=
    block [
      .use [n_self, n_mu, n_e_k, n_sigma_wk, n_wmesh],
      .bind [n_g_wk],
      .use [n_self, n_g_wk],
      .bind [n_rho_r],
      .use [n_self, n_rho_r],
      .bind [n_rho_loc],
      .use [n_self, n_rho_loc],
      .bind [n_N],
      .use [n_N, n_N_fix],
      .ret]

/-- gw_solver.py:280-289 `_dyson_equation_dispatch` -/
def f_GWSolver__dyson_equation_dispatch : Fn where
  params := [n_self, n_mu, n_e_k, n_sigma_wk, n_wmesh]
  body :=
    block [
      .use [n_sigma_wk],
      .ite
        (block [
          .use [n_lattice_dyson_g_wk, n_mu, n_e_k, n_sigma_wk],
          .bind [n_g_wk]])
        (block [
          .use [n_sigma_wk],
          .ite
            (.use [n_wmesh])
            (.skip),
          .ite
            (block [
              .use [n_lattice_dyson_g0_wk, n_mu, n_e_k, n_wmesh],
              .bind [n_g_wk]])
            (block [
              .use [n_NotImplementedError],
              .raise])]),
      .use [n_g_wk],
      .ret]

/-- gw_solver.py:292-385 `solve_iter` -/
def f_GWSolver_solve_iter : Fn where
  params := [n_self, n_tol, n_maxiter, n_hartree, n_fock, n_gw, n_verbose, n_spinless]
  body :=
    block [
      .use [n_mpi],
      .ite
        (.use [n_print, n_print, n_print, n_spinless, n_print, n_hartree, n_print, n_fock, n_print, n_gw, n_print])
        (.bind [n_verbose]),
      .use [n_self, n_self, n_self, n_self, n_self],
      .bind [n_e_k, n_V_k, n_V_r, n_mu, n_N_fix],
      .use [n_self],
      .bind [n_g_wk],
      .use [n_g_wk],
      .bind [n_sigma_wk],
      .use [n_sigma_wk, n_float],
      .bind [n_N_old],
      .use [n_g_wk],
      .bind [n_g_wk_old],
      .use [n_float, n_g_wk_old, n_range, n_maxiter],
      .loop .any
        (block [
          .bind [n_iter],
          .use [n_sigma_wk, n_verbose],
          .ite
            (.use [n_print])
            (.skip),
          .use [n_self, n_g_wk],
          .bind [n_rho_r],
          .use [n_hartree],
          .ifv n_hartree
            (block [
              .use [n_verbose],
              .ite
                (.use [n_print])
                (.skip),
              .use [n_self, n_V_k, n_rho_r, n_self, n_sigma_wk, n_self]])
            (.skip),
          .use [n_fock],
          .ifv n_fock
            (block [
              .use [n_verbose],
              .ite
                (.use [n_print])
                (.skip),
              .use [n_self, n_V_r, n_rho_r, n_self, n_sigma_wk, n_self]])
            (.skip),
          .use [n_gw],
          .ifv n_gw
            (block [
              .use [n_verbose],
              .ite
                (.use [n_print])
                (.skip),
              .use [n_self, n_g_wk],
              .bind [n_P_wk],
              .use [n_verbose],
              .ite
                (.use [n_print])
                (.skip),
              .use [n_self, n_P_wk, n_V_k, n_spinless],
              .bind [n_W_wk],
              .use [n_verbose],
              .ite
                (.use [n_print])
                (.skip),
              .use [n_W_wk],
              .bind [n_W_dyn_wk],
              .use [n_W_dyn_wk],
              .loop .any
                (block [
                  .bind [n_w],
                  .use [n_W_dyn_wk, n_w, n_V_k]])
                (.skip),
              .use [n_verbose],
              .ite
                (.use [n_print])
                (.skip),
              .use [n_self, n_W_dyn_wk, n_g_wk, n_self, n_sigma_wk, n_self]])
            (.skip),
          .use [n_verbose],
          .ite
            (.use [n_print])
            (.skip),
          .use [n_self, n_mu, n_e_k, n_sigma_wk, n_N_fix],
          .bind [n_g_wk, n_mu],
          .use [n_verbose],
          .ite
            (.use [n_print])
            (.skip),
          .use [n_np, n_np, n_g_wk, n_g_wk_old],
          .bind [n_diff],
          .use [n_g_wk],
          .bind [n_g_wk_old],
          .use [n_iter],
          .ite
            (block [
              .use [n_verbose],
              .ite
                (.use [n_mpi])
                (.skip)])
            (.skip),
          .ite
            (.use [n_print, n_iter, n_diff])
            (.skip),
          .use [n_diff, n_tol],
          .ite
            (.brk)
            (.skip)])
        (.skip),
      .use [n_self, n_g_wk],
      .bind [n_rho_r],
      .use [n_self, n_rho_r],
      .bind [n_rho_loc],
      .use [n_self, n_rho_loc],
      .bind [n_N],
      .use [n_self, n_g_wk, n_self, n_rho_r, n_self, n_rho_loc, n_self, n_N, n_self, n_mu, n_self, n_g_wk, n_self, n_sigma_wk, n_self, n_gw],
      .ifv n_gw
        (.use [n_W_wk, n_self, n_W_dyn_wk, n_self, n_P_wk, n_self, n_self, n_P_wk, n_W_wk, n_self])
        (.skip),
      .use [n_mpi],
      .ite
        (.use [n_print, n_self])
        (.skip)]

/-- gw_solver.py:388-388 `get_local_density_matrix` -/
def f_GWSolver_get_local_density_matrix : Fn where
  params := [n_self]
  body :=
    block [
      .use [n_self],
      .ret]

/-- gw_solver.py:390-390 `get_total_density` -/
def f_GWSolver_get_total_density : Fn where
  params := [n_self]
  body :=
    block [
      .use [n_self],
      .ret]

/-- gw_solver.py:393-396 `__reduce_to_dict__` -/
def f_GWSolver___reduce_to_dict__ : Fn where
  params := [n_self]
  body :=
    block [
      .use [n_self],
      .bind [n_out],
      .use [n_out, n_out],
      .ret]

/-- gw_solver.py:400-403 `__factory_from_dict__` -/
def f_GWSolver___factory_from_dict__ : Fn where
  params := [n_cls, n_name, n_d]
  body :=
    block [
      .use [n_cls, n_d, n_d, n_d],
      .bind [n_ret],
      .use [n_ret, n_d, n_ret],
      .ret]

/-- gw_solver.py:406-423 `logo` -/
def f_GWSolver_logo : Fn where
  params := [n_self]
  body :=
    block [
      .use [n_sys],
      .ite
        (.bind [n_logo])
        (.bind [n_logo]),
      .use [n_logo],
      .ret]

/-- gw_solver.py, all code of the module; the functions f_GWSolver_solve_iter are treated separately -/
def mod : Mod where
  top :=
    block [
      .bind [n_sys],
      .bind [n_np],
      .bind [n_register_class],
      .bind [n_mpi],
      .bind [n_Gf, n_MeshProduct, n_Idx, n_MeshImFreq],
      .bind [n_make_gf_from_fourier],
      .bind [n_lattice_dyson_g0_wk],
      .bind [n_lattice_dyson_g_wk],
      .bind [n_rho_k_from_g_wk],
      .bind [n_gw_dynamic_sigma, n_hartree_sigma, n_fock_sigma],
      .bind [n_dynamical_screened_interaction_W],
      .bind [n_generalized_susceptibility],
      .bind [n_split_into_dynamic_wk_and_constant_k],
      .bind [n_fourier_wk_to_wr],
      .bind [n_fourier_wr_to_tr],
      .bind [n_chi_wr_from_chi_wk],
      .bind [n_chi_tr_from_chi_wr],
      .bind [n_fourier_tr_to_wr],
      .bind [n_fourier_wr_to_wk],
      .bind [n_imtime_bubble_chi0_wk],
      .bind [n_pade_analytical_continuation_wk],
      .bind [n_ParameterCollection],
      .bind [n_Timer, n_timer],
      .bind [n_MeshDLRImFreq],
      .bind [n_dlr_on_imfreq],
      .bind [n_make_gf_dlr],
      .bind [n_GWSolver],
      .use [n_register_class, n_GWSolver]]
  fns := [f_GWSolver, f_GWSolver___init__, f_GWSolver_calc_real_space, f_GWSolver_calc_real_freq, f_GWSolver_calc_rho_loc,
    f_GWSolver_calc_total_density, f_GWSolver_calc_rho_k, f_GWSolver_calc_rho_r, f_GWSolver_hartree_sigma, f_GWSolver_fock_sigma,
    f_GWSolver_gw_dynamic_sigma, f_GWSolver_polarization, f_GWSolver_screened_interaction, f_GWSolver_susceptibiltiy,
    f_GWSolver_dynamic_and_static_interaction, f_GWSolver_dyson_equation, f_GWSolver_dyson_equation_target_function,
    f_GWSolver__dyson_equation_dispatch, f_GWSolver_get_local_density_matrix, f_GWSolver_get_total_density,
    f_GWSolver___reduce_to_dict__, f_GWSolver___factory_from_dict__, f_GWSolver_logo]

end Verif.Names.GwSolver
