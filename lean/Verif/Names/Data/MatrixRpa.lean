import Verif.Names.Data.Ids

/-!
# `python/triqs_tprf/matrix_rpa.py`

Written by `/verif/tools/names_extract.py`.
-/

set_option linter.style.nameCheck false

namespace Verif.Names.MatrixRpa

/-- matrix_rpa.py:42-48 `tprf_order_to_matrix_rpa_order` -/
def f_tprf_order_to_matrix_rpa_order : Fn where
  params := [n_tensor]
  body :=
    block [
      .use [n_tensor],
      .ret]

/-- matrix_rpa.py:51-76 `lose_spin_degree_of_freedom` -/
def f_lose_spin_degree_of_freedom : Fn where
  params := [n_gf, n_rank, n_spin_fast]
  body :=
    block [
      .use [n_gf],
      .bind [n_norb],
      .use [n_len, n_gf, n_rank, n_slice],
      .bind [n_idx],
      .use [n_spin_fast],
      .ifv n_spin_fast
        (.use [n_idx, n_rank, n_slice])
        (.use [n_idx, n_rank, n_slice, n_norb]),
      .use [n_gf, n_tuple, n_idx],
      .bind [n_spin_independent_gf],
      .use [n_spin_independent_gf],
      .ret]

/-- matrix_rpa.py:79-109 `get_rpa_us_tensor` -/
def f_get_rpa_us_tensor : Fn where
  params := [n_norb, n_U, n_Up, n_J, n_Jp]
  body :=
    block [
      .use [n_np, n_norb, n_complex],
      .bind [n_U_abcd],
      .use [n_itertools, n_list, n_range, n_norb],
      .loop .any
        (block [
          .bind [n_a, n_b, n_c, n_d],
          .use [n_a, n_b],
          .ite
            (block [
              .use [n_c],
              .ite
                (.use [n_d])
                (.skip)])
            (.skip),
          .ite
            (.use [n_U, n_U_abcd, n_a, n_b, n_c, n_d])
            (block [
              .use [n_a, n_c],
              .ite
                (block [
                  .use [n_b],
                  .ite
                    (.use [n_d])
                    (.skip)])
                (.skip),
              .ite
                (.use [n_Up, n_U_abcd, n_a, n_b, n_c, n_d])
                (block [
                  .use [n_a, n_b],
                  .ite
                    (block [
                      .use [n_c],
                      .ite
                        (.use [n_d])
                        (.skip)])
                    (.skip),
                  .ite
                    (.use [n_J, n_U_abcd, n_a, n_b, n_c, n_d])
                    (block [
                      .use [n_a, n_d],
                      .ite
                        (block [
                          .use [n_b],
                          .ite
                            (.use [n_c])
                            (.skip)])
                        (.skip),
                      .ite
                        (.use [n_Jp, n_U_abcd, n_a, n_b, n_c, n_d])
                        (.skip)])])])])
        (.skip),
      .use [n_U_abcd],
      .ret]

/-- matrix_rpa.py:112-142 `get_rpa_uc_tensor` -/
def f_get_rpa_uc_tensor : Fn where
  params := [n_norb, n_U, n_Up, n_J, n_Jp]
  body :=
    block [
      .use [n_np, n_norb, n_complex],
      .bind [n_U_abcd],
      .use [n_itertools, n_list, n_range, n_norb],
      .loop .any
        (block [
          .bind [n_a, n_b, n_c, n_d],
          .use [n_a, n_b],
          .ite
            (block [
              .use [n_c],
              .ite
                (.use [n_d])
                (.skip)])
            (.skip),
          .ite
            (.use [n_U, n_U_abcd, n_a, n_b, n_c, n_d])
            (block [
              .use [n_a, n_c],
              .ite
                (block [
                  .use [n_b],
                  .ite
                    (.use [n_d])
                    (.skip)])
                (.skip),
              .ite
                (.use [n_Up, n_J, n_U_abcd, n_a, n_b, n_c, n_d])
                (block [
                  .use [n_a, n_b],
                  .ite
                    (block [
                      .use [n_c],
                      .ite
                        (.use [n_d])
                        (.skip)])
                    (.skip),
                  .ite
                    (.use [n_Up, n_J, n_U_abcd, n_a, n_b, n_c, n_d])
                    (block [
                      .use [n_a, n_d],
                      .ite
                        (block [
                          .use [n_b],
                          .ite
                            (.use [n_c])
                            (.skip)])
                        (.skip),
                      .ite
                        (.use [n_Jp, n_U_abcd, n_a, n_b, n_c, n_d])
                        (.skip)])])])])
        (.skip),
      .use [n_U_abcd],
      .ret]

/-- matrix_rpa.py:145-166 `tensor_to_matrix` -/
def f_tensor_to_matrix : Fn where
  params := [n_tensor]
  body :=
    block [
      .use [n_tensor],
      .bind [n_norb],
      .use [n_tensor],
      .bind [n_non_orb_idx],
      .use [n_list, n_range, n_norb],
      .bind [n_idx],
      .use [n_idx, n_norb],
      .bind [n_diag],
      .use [n_diag, n_list, n_set, n_idx, n_set, n_diag],
      .bind [n_idx],
      .use [n_slice, n_len, n_non_orb_idx, n_np, n_idx],
      .bind [n_left],
      .use [n_slice, n_len, n_non_orb_idx, n_np, n_idx],
      .bind [n_right],
      .use [n_tensor, n_non_orb_idx, n_norb, n_tuple, n_left, n_tuple, n_right],
      .bind [n_matrix],
      .use [n_matrix],
      .ret]

/-- matrix_rpa.py:169-191 `matrix_to_tensor` -/
def f_matrix_to_tensor : Fn where
  params := [n_matrix]
  body :=
    block [
      .use [n_int, n_np, n_matrix],
      .bind [n_norb],
      .use [n_matrix],
      .bind [n_non_orb_idx],
      .use [n_list, n_range, n_norb],
      .bind [n_idx],
      .use [n_idx, n_norb],
      .bind [n_diag],
      .use [n_diag, n_list, n_set, n_idx, n_set, n_diag],
      .bind [n_idx],
      .use [n_range, n_len, n_idx],
      .ite
        (.use [n_idx])
        (.skip),
      .bind [n_idx],
      .use [n_slice, n_len, n_non_orb_idx, n_np, n_idx],
      .bind [n_left],
      .use [n_slice, n_len, n_non_orb_idx, n_np, n_idx],
      .bind [n_right],
      .use [n_matrix, n_tuple, n_left, n_tuple, n_right, n_non_orb_idx, n_norb],
      .bind [n_tensor],
      .use [n_tensor],
      .ret]

/-- matrix_rpa.py:194-212 `matrix_rpa` -/
def f_matrix_rpa : Fn where
  params := [n_chi0_matrix, n_u_matrix]
  body :=
    block [
      .use [n_int, n_np, n_chi0_matrix],
      .bind [n_norb],
      .use [n_np, n_chi0_matrix, n_u_matrix],
      .bind [n_u_chi0],
      .use [n_np_inv, n_np, n_norb, n_u_chi0],
      .bind [n_inverse_matrix],
      .use [n_np, n_inverse_matrix, n_chi0_matrix],
      .bind [n_chi_rpa_matrix],
      .use [n_chi_rpa_matrix],
      .ret]

/-- matrix_rpa.py:215-234 `chi_rpa_spin` -/
def f_chi_rpa_spin : Fn where
  params := [n_chi0, n_us]
  body :=
    block [
      .use [n_tensor_to_matrix, n_chi0],
      .bind [n_chi0_matrix],
      .use [n_tensor_to_matrix, n_us],
      .bind [n_us_matrix],
      .use [n_matrix_rpa, n_chi0_matrix, n_us_matrix],
      .bind [n_chi_rpa_spin_matrix],
      .use [n_matrix_to_tensor, n_chi_rpa_spin_matrix],
      .bind [n_chi_rpa_spin_tensor],
      .use [n_chi_rpa_spin_tensor],
      .ret]

/-- matrix_rpa.py:237-257 `chi_rpa_charge` -/
def f_chi_rpa_charge : Fn where
  params := [n_chi0, n_uc]
  body :=
    block [
      .use [n_tensor_to_matrix, n_chi0],
      .bind [n_chi0_matrix],
      .use [n_tensor_to_matrix, n_uc],
      .bind [n_uc_matrix],
      .use [n_matrix_rpa, n_chi0_matrix, n_uc_matrix],
      .bind [n_chi_rpa_charge_matrix],
      .use [n_matrix_to_tensor, n_chi_rpa_charge_matrix],
      .bind [n_chi_rpa_charge_tensor],
      .use [n_chi_rpa_charge_tensor],
      .ret]

/-- matrix_rpa.py, all code of the module -/
def mod : Mod where
  top :=
    block [
      .bind [n_itertools],
      .bind [n_np],
      .bind [n_np_inv],
      .bind [n_tprf_order_to_matrix_rpa_order],
      .bind [n_lose_spin_degree_of_freedom],
      .bind [n_get_rpa_us_tensor],
      .bind [n_get_rpa_uc_tensor],
      .bind [n_tensor_to_matrix],
      .bind [n_matrix_to_tensor],
      .bind [n_matrix_rpa],
      .bind [n_chi_rpa_spin],
      .bind [n_chi_rpa_charge]]
  fns := [f_tprf_order_to_matrix_rpa_order, f_lose_spin_degree_of_freedom, f_get_rpa_us_tensor, f_get_rpa_uc_tensor, f_tensor_to_matrix,
    f_matrix_to_tensor, f_matrix_rpa, f_chi_rpa_spin, f_chi_rpa_charge]

end Verif.Names.MatrixRpa
