import Verif.Names.Data.Ids

/-!
# `python/triqs_tprf/hf_solver.py`

Written by `/verif/tools/names_extract.py`.
-/

set_option linter.style.nameCheck false

namespace Verif.Names.HfSolver

/-- hf_solver.py:56-522 `HartreeFockSolver` (class body) -/
def f_HartreeFockSolver : Fn where
  params := []
  isClass := true
  body :=
    block [
      .bind [n___init__],
      .bind [n_update_mean_field],
      .bind [n_update_mean_field_dispersion],
      .bind [n_update_chemical_potential],
      .bind [n_update_momentum_density_matrix],
      .bind [n_update_density_matrix],
      .bind [n_update_non_int_free_energy],
      .bind [n_update_kinetic_energy],
      .bind [n_update_interaction_energy],
      .bind [n_update_total_energy],
      .bind [n_density_matrix_step],
      .bind [n_solve_setup],
      .bind [n_solve_iter],
      .bind [n_solve_newton],
      .bind [n_solve_newton_mu],
      .bind [n_total_density],
      .bind [n_density_matrix],
      .bind [n_mean_field_matrix],
      .bind [n_chemical_potential],
      .bind [n_expectation_value],
      .bind [n___str__],
      .bind [n_mat2vec],
      .bind [n_vec2mat],
      .bind [n_logo]]

/-- hf_solver.py:84-139 `__init__` -/
def f_HartreeFockSolver___init__ : Fn where
  params := [n_self, n_e_k, n_beta, n_H_int, n_gf_struct, n_mu0, n_mu_max, n_mu_min]
  body :=
    block [
      .use [n_mpi],
      .ite
        (.use [n_print, n_self])
        (.skip),
      .use [n_fix_gf_struct_type, n_gf_struct],
      .bind [n_gf_struct],
      .use [n_mu0, n_self, n_beta, n_self, n_mu_max, n_self, n_mu_min, n_self, n_e_k, n_self, n_e_k, n_self, n_len, n_self, n_self, n_self, n_self,
        n_self, n_self, n_list, n_self, n_self, n_self, n_self, n_np, n_self, n_self, n_mpi],
      .ite
        (.use [n_print, n_self, n_print, n_self, n_self, n_self, n_print, n_self, n_print, n_len, n_self, n_print, n_H_int, n_print])
        (.skip),
      .use [n_gf_struct],
      .ite
        (block [
          .use [n_H_int],
          .ite
            (.raise)
            (.skip)])
        (.skip),
      .use [n_H_int],
      .ite
        (block [
          .use [n_gf_struct],
          .ite
            (.raise)
            (.skip),
          .use [n_fundamental_operators_from_gf_struct, n_gf_struct],
          .bind [n_fundamental_operators],
          .use [n_mpi],
          .ite
            (.use [n_print, n_gf_struct, n_print, n_fundamental_operators, n_print])
            (.skip),
          .use [n_is_operator_composed_of_only_fundamental_operators, n_H_int, n_fundamental_operators],
          .ite
            (.raise)
            (.skip),
          .use [n_get_rpa_tensor, n_H_int, n_fundamental_operators, n_self]])
        (.use [n_np, n_self, n_self])]

/-- hf_solver.py:142-146 `update_mean_field` -/
def f_HartreeFockSolver_update_mean_field : Fn where
  params := [n_self, n_rho_ab]
  body :=
    block [
      .use [n_np, n_self, n_rho_ab, n_self, n_self],
      .ret]

/-- hf_solver.py:149-150 `update_mean_field_dispersion` -/
def f_HartreeFockSolver_update_mean_field_dispersion : Fn where
  params := [n_self]
  body :=
    .use [n_self, n_self, n_self]

/-- hf_solver.py:153-171 `update_chemical_potential` -/
def f_HartreeFockSolver_update_chemical_potential : Fn where
  params := [n_self, n_N_target, n_mu0]
  body :=
    block [
      .use [n_mu0],
      .ite
        (block [
          .use [n_self],
          .bind [n_mu0]])
        (.skip),
      .use [n_np_eigvalsh, n_self],
      .bind [n_e],
      .clo [n_np, n_self],
      .bind [n_fermi],
      .clo [n_N_target, n_e, n_fermi, n_self],
      .bind [n_target_function],
      .use [n_self],
      .ite
        (.use [n_self])
        (.use [n_e]),
      .bind [n_mu_min],
      .use [n_self],
      .ite
        (.use [n_self])
        (.use [n_e]),
      .bind [n_mu_max],
      .use [n_brentq, n_target_function, n_mu_min, n_mu_max],
      .bind [n_mu],
      .use [n_mu, n_self]]

/-- hf_solver.py:162-164 `target_function` -/
def f_HartreeFockSolver_update_chemical_potential_target_function : Fn where
  params := [n_mu]
  outer := [n_N_target, n_e, n_fermi, n_self]
  body :=
    block [
      .use [n_np, n_fermi, n_e, n_mu, n_self],
      .bind [n_n],
      .use [n_n, n_N_target],
      .ret]

/-- hf_solver.py:174-182 `update_momentum_density_matrix` -/
def f_HartreeFockSolver_update_momentum_density_matrix : Fn where
  params := [n_self]
  body :=
    block [
      .use [n_np_eigh, n_self],
      .bind [n_e, n_V],
      .use [n_e, n_self],
      .bind [n_e],
      .clo [n_np, n_self],
      .bind [n_fermi],
      .use [n_np, n_V, n_fermi, n_e, n_np, n_V, n_self, n_self],
      .ret]

/-- hf_solver.py:185-191 `update_density_matrix` -/
def f_HartreeFockSolver_update_density_matrix : Fn where
  params := [n_self]
  body :=
    block [
      .use [n_self],
      .bind [n_rho_kab],
      .use [n_np, n_rho_kab, n_self, n_self, n_np, n_np, n_self, n_self, n_self],
      .ret]

/-- hf_solver.py:194-202 `update_non_int_free_energy` -/
def f_HartreeFockSolver_update_non_int_free_energy : Fn where
  params := [n_self]
  body :=
    block [
      .use [n_np_eigvalsh, n_self],
      .bind [n_e],
      .use [n_e, n_self],
      .bind [n_e],
      .use [n_self, n_np, n_np, n_np, n_self, n_e, n_self, n_self, n_len, n_self, n_self],
      .ret]

/-- hf_solver.py:205-211 `update_kinetic_energy` -/
def f_HartreeFockSolver_update_kinetic_energy : Fn where
  params := [n_self]
  body :=
    block [
      .use [n_self],
      .bind [n_rho_kab],
      .use [n_np, n_self, n_rho_kab, n_self, n_self, n_len, n_self, n_self],
      .ret]

/-- hf_solver.py:214-219 `update_interaction_energy` -/
def f_HartreeFockSolver_update_interaction_energy : Fn where
  params := [n_self]
  body :=
    block [
      .use [n_np, n_self, n_self, n_self, n_self, n_self],
      .ret]

/-- hf_solver.py:222-231 `update_total_energy` -/
def f_HartreeFockSolver_update_total_energy : Fn where
  params := [n_self]
  body :=
    block [
      .use [n_self],
      .bind [n_E_kin],
      .use [n_self],
      .bind [n_E_int],
      .use [n_E_kin, n_E_int, n_self, n_self],
      .bind [n_Omega0],
      .use [n_Omega0, n_E_int, n_self, n_self],
      .ret]

/-- hf_solver.py:234-248 `density_matrix_step` -/
def f_HartreeFockSolver_density_matrix_step : Fn where
  params := [n_self, n_rho_vec, n_N_target]
  body :=
    block [
      .use [n_self, n_rho_vec],
      .bind [n_rho_ab],
      .use [n_self, n_rho_ab, n_self, n_N_target],
      .ite
        (.use [n_self, n_N_target, n_self])
        (.skip),
      .use [n_self],
      .bind [n_rho_ab],
      .use [n_self, n_rho_ab],
      .bind [n_rho_vec],
      .use [n_rho_vec],
      .ret]

/-- hf_solver.py:251-272 `solve_setup` -/
def f_HartreeFockSolver_solve_setup : Fn where
  params := [n_self, n_N_target, n_M0, n_mu0]
  body :=
    block [
      .use [n_N_target, n_self, n_mu0],
      .ite
        (.use [n_self, n_self])
        (.use [n_mu0, n_self]),
      .use [n_M0],
      .ite
        (block [
          .use [n_np, n_self],
          .bind [n_M0]])
        (.skip),
      .use [n_np, n_M0, n_complex],
      .bind [n_M0],
      .use [n_np, n_M0, n_self, n_self, n_self, n_self, n_self],
      .bind [n_rho0_ab],
      .use [n_self, n_rho0_ab],
      .bind [n_rho0_vec],
      .use [n_rho0_vec],
      .ret]

/-- hf_solver.py:275-346 `solve_iter` -/
def f_HartreeFockSolver_solve_iter : Fn where
  params := [n_self, n_N_target, n_M0, n_mu0, n_nitermax, n_mixing, n_tol]
  body :=
    block [
      .use [n_print, n_print, n_nitermax, n_print, n_mixing, n_print, n_tol, n_print, n_mixing],
      .ite
        (.raise)
        (.skip),
      .use [n_mixing],
      .ite
        (.raise)
        (.skip),
      .use [n_mixing, n_self, n_nitermax, n_self, n_self, n_N_target, n_M0, n_mu0],
      .bind [n_rho_vec],
      .bind [n_rho_iter],
      .use [n_range, n_self],
      .loop .any
        (block [
          .bind [n_idx],
          .use [n_rho_iter, n_rho_vec, n_np, n_rho_vec],
          .bind [n_rho_vec_old],
          .use [n_self, n_rho_vec, n_N_target],
          .bind [n_rho_vec_new],
          .use [n_np, n_rho_vec_old],
          .bind [n_norm],
          .use [n_np, n_rho_vec_old, n_rho_vec_new, n_norm],
          .bind [n_drho],
          .use [n_print, n_idx, n_drho, n_drho, n_tol],
          .ite
            (block [
              .use [n_print, n_drho],
              .brk])
            (.skip),
          .use [n_mixing, n_rho_vec_old, n_mixing, n_rho_vec_new],
          .bind [n_rho_vec]])
        (.skip),
      .use [n_self, n_print, n_self, n_np, n_rho_iter],
      .bind [n_rho_iter],
      .use [n_rho_iter],
      .ret]

/-- hf_solver.py:349-381 `solve_newton` -/
def f_HartreeFockSolver_solve_newton : Fn where
  params := [n_self, n_N_target, n_M0, n_mu0]
  body :=
    block [
      .use [n_print, n_print, n_self, n_N_target, n_M0, n_mu0],
      .bind [n_rho0_vec],
      .clo [n_N_target, n_self],
      .bind [n_target_function],
      .use [n_fsolve, n_target_function, n_rho0_vec],
      .bind [n_rho_vec],
      .use [n_self, n_print, n_self, n_self, n_rho_vec]]

/-- hf_solver.py:372-374 `target_function` -/
def f_HartreeFockSolver_solve_newton_target_function : Fn where
  params := [n_rho_vec]
  outer := [n_N_target, n_self]
  body :=
    block [
      .use [n_self, n_rho_vec, n_N_target],
      .bind [n_rho_vec_new],
      .use [n_rho_vec_new, n_rho_vec],
      .ret]

/-- hf_solver.py:384-423 `solve_newton_mu` -/
def f_HartreeFockSolver_solve_newton_mu : Fn where
  params := [n_self, n_mu, n_M0]
  body :=
    block [
      .use [n_print, n_print, n_mu, n_self, n_M0],
      .ite
        (block [
          .use [n_np, n_self],
          .bind [n_M0]])
        (.skip),
      .use [n_np, n_M0, n_complex],
      .bind [n_M0],
      .use [n_np, n_M0, n_self, n_self, n_self],
      .bind [n_rho0_ab],
      .use [n_self, n_rho0_ab],
      .bind [n_rho0_vec],
      .clo [n_self],
      .bind [n_target_function],
      .use [n_fsolve, n_target_function, n_rho0_vec],
      .bind [n_rho_vec],
      .use [n_self, n_print, n_self, n_self, n_rho_vec]]

/-- hf_solver.py:414-416 `target_function` -/
def f_HartreeFockSolver_solve_newton_mu_target_function : Fn where
  params := [n_rho_vec]
  outer := [n_self]
  body :=
    block [
      .use [n_self, n_rho_vec],
      .bind [n_rho_vec_new],
      .use [n_rho_vec_new, n_rho_vec],
      .ret]

/-- hf_solver.py:426-427 `total_density` -/
def f_HartreeFockSolver_total_density : Fn where
  params := [n_self]
  body :=
    block [
      .use [n_self],
      .ret]

/-- hf_solver.py:430-431 `density_matrix` -/
def f_HartreeFockSolver_density_matrix : Fn where
  params := [n_self]
  body :=
    block [
      .use [n_self],
      .ret]

/-- hf_solver.py:434-435 `mean_field_matrix` -/
def f_HartreeFockSolver_mean_field_matrix : Fn where
  params := [n_self]
  body :=
    block [
      .use [n_self],
      .ret]

/-- hf_solver.py:438-439 `chemical_potential` -/
def f_HartreeFockSolver_chemical_potential : Fn where
  params := [n_self]
  body :=
    block [
      .use [n_self],
      .ret]

/-- hf_solver.py:442-443 `expectation_value` -/
def f_HartreeFockSolver_expectation_value : Fn where
  params := [n_self, n_op_ab]
  body :=
    block [
      .use [n_np, n_op_ab, n_self],
      .ret]

/-- hf_solver.py:446-461 `__str__` -/
def f_HartreeFockSolver___str__ : Fn where
  params := [n_self]
  body :=
    block [
      .use [n_str, n_self, n_str, n_self, n_str, n_self, n_str, n_self, n_str, n_self, n_str, n_self, n_str, n_self, n_str, n_self, n_str, n_self,
        n_str, n_self, n_str, n_self, n_self, n_np, n_self],
      .bind [n_txt],
      .use [n_txt],
      .ret]

/-- hf_solver.py:464-482 `mat2vec` -/
def f_HartreeFockSolver_mat2vec : Fn where
  params := [n_self, n_mat]
  body :=
    block [
      .use [n_len, n_mat],
      .ite
        (.raise)
        (.skip),
      .use [n_np, n_mat],
      .bind [n_diag],
      .use [n_mat, n_self],
      .bind [n_up_tri],
      .use [n_np, n_diag, n_up_tri, n_up_tri],
      .bind [n_vec],
      .use [n_vec],
      .ret]

/-- hf_solver.py:485-502 `vec2mat` -/
def f_HartreeFockSolver_vec2mat : Fn where
  params := [n_self, n_vec]
  body :=
    block [
      .use [n_len, n_vec],
      .ite
        (.raise)
        (.skip),
      .use [n_np, n_self, n_complex],
      .bind [n_mat],
      .use [n_vec, n_self, n_vec, n_self],
      .bind [n_diag, n_up_tri],
      .use [n_np, n_up_tri],
      .bind [n_re, n_im],
      .use [n_re, n_im, n_mat, n_self, n_mat, n_np, n_mat],
      .bind [n_mat],
      .use [n_mat, n_np, n_diag],
      .bind [n_mat],
      .use [n_mat],
      .ret]

/-- hf_solver.py:505-522 `logo` -/
def f_HartreeFockSolver_logo : Fn where
  params := [n_self]
  body :=
    block [
      .use [n_sys],
      .ite
        (.bind [n_logo])
        (.bind [n_logo]),
      .use [n_logo],
      .ret]

/-- hf_solver.py:525-580 `HartreeSolver` (class body) -/
def f_HartreeSolver : Fn where
  params := []
  isClass := true
  body :=
    block [
      .bind [n_mat2vec],
      .bind [n_vec2mat],
      .bind [n_logo]]

/-- hf_solver.py:553-555 `mat2vec` -/
def f_HartreeSolver_mat2vec : Fn where
  params := [n_self, n_mat]
  body :=
    block [
      .use [n_len, n_mat],
      .ite
        (.raise)
        (.skip),
      .use [n_np, n_mat],
      .ret]

/-- hf_solver.py:558-560 `vec2mat` -/
def f_HartreeSolver_vec2mat : Fn where
  params := [n_self, n_vec]
  body :=
    block [
      .use [n_len, n_vec],
      .ite
        (.raise)
        (.skip),
      .use [n_np, n_vec],
      .ret]

/-- hf_solver.py:563-580 `logo` -/
def f_HartreeSolver_logo : Fn where
  params := [n_self]
  body :=
    block [
      .use [n_sys],
      .ite
        (.bind [n_logo])
        (.bind [n_logo]),
      .use [n_logo],
      .ret]

/-- hf_solver.py, all code of the module -/
def mod : Mod where
  top :=
    block [
      .bind [n_sys],
      .bind [n_itertools],
      .bind [n_np],
      .bind [n_np_eigvalsh, n_np_eigh],
      .bind [n_fsolve],
      .bind [n_brentq],
      .bind [n_fix_gf_struct_type],
      .bind [n_mpi],
      .bind [n_get_rpa_tensor],
      .bind [n_fundamental_operators_from_gf_struct],
      .bind [n_is_operator_composed_of_only_fundamental_operators],
      .use [n_object],
      .bind [n_HartreeFockSolver],
      .use [n_HartreeFockSolver],
      .bind [n_HartreeSolver]]
  fns := [f_HartreeFockSolver, f_HartreeFockSolver___init__, f_HartreeFockSolver_update_mean_field,
    f_HartreeFockSolver_update_mean_field_dispersion, f_HartreeFockSolver_update_chemical_potential,
    f_HartreeFockSolver_update_chemical_potential_target_function, f_HartreeFockSolver_update_momentum_density_matrix,
    f_HartreeFockSolver_update_density_matrix, f_HartreeFockSolver_update_non_int_free_energy,
    f_HartreeFockSolver_update_kinetic_energy, f_HartreeFockSolver_update_interaction_energy,
    f_HartreeFockSolver_update_total_energy, f_HartreeFockSolver_density_matrix_step, f_HartreeFockSolver_solve_setup,
    f_HartreeFockSolver_solve_iter, f_HartreeFockSolver_solve_newton, f_HartreeFockSolver_solve_newton_target_function,
    f_HartreeFockSolver_solve_newton_mu, f_HartreeFockSolver_solve_newton_mu_target_function, f_HartreeFockSolver_total_density,
    f_HartreeFockSolver_density_matrix, f_HartreeFockSolver_mean_field_matrix, f_HartreeFockSolver_chemical_potential,
    f_HartreeFockSolver_expectation_value, f_HartreeFockSolver___str__, f_HartreeFockSolver_mat2vec, f_HartreeFockSolver_vec2mat,
    f_HartreeFockSolver_logo, f_HartreeSolver, f_HartreeSolver_mat2vec, f_HartreeSolver_vec2mat, f_HartreeSolver_logo]

end Verif.Names.HfSolver
