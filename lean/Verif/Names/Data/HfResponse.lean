import Verif.Names.Data.Ids

/-!
# `python/triqs_tprf/hf_response.py`

Written by `/verif/tools/names_extract.py`.
-/

set_option linter.style.nameCheck false

namespace Verif.Names.HfResponse

/-- hf_response.py:38-177 `BaseResponse` (class body) -/
def f_BaseResponse : Fn where
  params := []
  isClass := true
  body :=
    block [
      .bind [n___init__],
      .bind [n__compute_drho_dop],
      .bind [n__compute_drho_k_dop],
      .bind [n__compute_chi0_ab],
      .bind [n__compute_R_abcd],
      .bind [n__compute_R_kabcd],
      .bind [n__compute_chi0_abcd],
      .bind [n__compute_chi0_kabcd],
      .bind [n_logo]]

/-- hf_response.py:40-65 `__init__` -/
def f_BaseResponse___init__ : Fn where
  params := [n_self, n_solver, n_eps]
  body :=
    block [
      .use [n_print, n_self, n_solver, n_self, n_eps, n_self, n_self, n_self, n_self, n_self, n_len, n_self, n_self, n_self, n_self, n_self, n_self,
        n_list, n_self, n_list, n_self, n_self, n_self, n_self, n_self, n_self, n_self, n_self, n_self, n_self, n_self, n_np, n_self],
      .bind [n_I_ab],
      .use [n_self, n_self, n_I_ab, n_print, n_self, n_print, n_self, n_print, n_self, n_print, n_self]]

/-- hf_response.py:68-73 `_compute_drho_dop` -/
def f_BaseResponse__compute_drho_dop : Fn where
  params := [n_self, n_op]
  body :=
    block [
      .use [n_self, n_op],
      .bind [n_drho_k],
      .use [n_np, n_drho_k, n_self],
      .bind [n_drho],
      .use [n_drho],
      .ret]

/-- hf_response.py:76-93 `_compute_drho_k_dop` -/
def f_BaseResponse__compute_drho_k_dop : Fn where
  params := [n_self, n_op]
  body :=
    block [
      .use [n_self, n_self],
      .bind [n_beta, n_eps],
      .use [n_self, n_eps, n_op],
      .bind [n_E_p],
      .use [n_self, n_eps, n_op],
      .bind [n_E_m],
      .use [n_np_eigh, n_E_p],
      .bind [n_e_p, n_U_p],
      .use [n_np_eigh, n_E_m],
      .bind [n_e_m, n_U_m],
      .clo [n_np],
      .bind [n_fermi],
      .use [n_np, n_U_p, n_fermi, n_e_p, n_beta, n_np, n_U_p],
      .bind [n_rho_k_p],
      .use [n_np, n_U_m, n_fermi, n_e_m, n_beta, n_np, n_U_m],
      .bind [n_rho_k_m],
      .use [n_rho_k_p, n_rho_k_m, n_eps],
      .bind [n_drho_k],
      .use [n_drho_k],
      .ret]

/-- hf_response.py:96-107 `_compute_chi0_ab` -/
def f_BaseResponse__compute_chi0_ab : Fn where
  params := [n_self]
  body :=
    block [
      .use [n_np, n_self, n_complex],
      .bind [n_chi0_ab],
      .use [n_range, n_self],
      .loop .any
        (block [
          .bind [n_a],
          .use [n_np, n_self],
          .bind [n_F_a],
          .use [n_F_a, n_a, n_a, n_np, n_self, n_F_a],
          .bind [n_chi0_b],
          .use [n_chi0_b, n_chi0_ab, n_a]])
        (.skip),
      .use [n_chi0_ab],
      .ret]

/-- hf_response.py:110-123 `_compute_R_abcd` -/
def f_BaseResponse__compute_R_abcd : Fn where
  params := [n_self, n_field_prefactor]
  body :=
    block [
      .use [n_np, n_self, n_complex],
      .bind [n_R_abcd],
      .use [n_itertools, n_list, n_range, n_self],
      .loop .any
        (block [
          .bind [n_a, n_b],
          .use [n_np, n_self, n_complex],
          .bind [n_F_ab],
          .use [n_F_ab, n_a, n_b, n_field_prefactor, n_F_ab, n_b, n_a, n_np, n_field_prefactor, n_self, n_F_ab],
          .bind [n_R_cd],
          .use [n_R_cd, n_R_abcd, n_b, n_a]])
        (.skip),
      .use [n_R_abcd],
      .ret]

/-- hf_response.py:126-139 `_compute_R_kabcd` -/
def f_BaseResponse__compute_R_kabcd : Fn where
  params := [n_self, n_field_prefactor]
  body :=
    block [
      .use [n_np, n_self, n_complex],
      .bind [n_R_kabcd],
      .use [n_itertools, n_list, n_range, n_self],
      .loop .any
        (block [
          .bind [n_a, n_b],
          .use [n_np, n_self, n_complex],
          .bind [n_F_ab],
          .use [n_F_ab, n_a, n_b, n_field_prefactor, n_F_ab, n_b, n_a, n_np, n_field_prefactor, n_self, n_F_ab],
          .bind [n_R_kcd],
          .use [n_R_kcd, n_R_kabcd, n_b, n_a]])
        (.skip),
      .use [n_R_kabcd],
      .ret]

/-- hf_response.py:142-147 `_compute_chi0_abcd` -/
def f_BaseResponse__compute_chi0_abcd : Fn where
  params := [n_self]
  body :=
    block [
      .use [n_self],
      .bind [n_chi0_kabcd],
      .use [n_np, n_chi0_kabcd, n_self],
      .bind [n_chi0_abcd],
      .use [n_chi0_abcd],
      .ret]

/-- hf_response.py:150-157 `_compute_chi0_kabcd` -/
def f_BaseResponse__compute_chi0_kabcd : Fn where
  params := [n_self]
  body :=
    block [
      .use [n_self],
      .bind [n_R_r_kabcd],
      .use [n_self],
      .bind [n_R_i_kabcd],
      .use [n_R_r_kabcd, n_R_i_kabcd],
      .bind [n_chi0_kabcd],
      .use [n_chi0_kabcd],
      .ret]

/-- hf_response.py:160-177 `logo` -/
def f_BaseResponse_logo : Fn where
  params := [n_self]
  body :=
    block [
      .use [n_sys],
      .ite
        (.bind [n_txt])
        (.bind [n_txt]),
      .use [n_txt],
      .ret]

/-- hf_response.py:180-262 `HartreeFockResponse` (class body) -/
def f_HartreeFockResponse : Fn where
  params := []
  isClass := true
  body :=
    block [
      .bind [n___init__],
      .bind [n_mode_decomposition],
      .bind [n__to_matrix_AB],
      .bind [n__to_tensor_abcd],
      .bind [n___check_op],
      .bind [n_bare_response],
      .bind [n_response],
      .bind [n_compute_chi0_k]]

/-- hf_response.py:195-207 `__init__` -/
def f_HartreeFockResponse___init__ : Fn where
  params := [n_self, n_hartree_fock_solver, n_eps]
  body :=
    block [
      .use [n_super, n_HartreeFockResponse, n_self, n_hartree_fock_solver, n_self, n_self, n_np, n_np, n_self],
      .bind [n_I_AB],
      .use [n_self, n_self],
      .bind [n_U_AB],
      .use [n_self, n_self],
      .bind [n_chi0_AB],
      .use [n_np, n_I_AB, n_chi0_AB, n_U_AB, n_chi0_AB],
      .bind [n_chi_AB],
      .use [n_self, n_chi0_AB, n_self, n_self, n_chi_AB, n_self]]

/-- hf_response.py:213-224 `mode_decomposition` -/
def f_HartreeFockResponse_mode_decomposition : Fn where
  params := [n_self]
  body :=
    block [
      .use [n_self, n_self],
      .bind [n_U_AB],
      .use [n_self, n_self],
      .bind [n_chi0_AB],
      .use [n_np, n_np, n_chi0_AB, n_np, n_U_AB],
      .bind [n_e],
      .use [n_np, n_e],
      .bind [n_idx],
      .use [n_e, n_idx],
      .bind [n_e],
      .use [n_e],
      .bind [n_e],
      .use [n_e],
      .ret]

/-- hf_response.py:226-228 `_to_matrix_AB` -/
def f_HartreeFockResponse__to_matrix_AB : Fn where
  params := [n_self, n_tensor_abcd]
  body :=
    block [
      .use [n_np, n_tensor_abcd, n_self],
      .bind [n_matrix_AB],
      .use [n_matrix_AB],
      .ret]

/-- hf_response.py:230-232 `_to_tensor_abcd` -/
def f_HartreeFockResponse__to_tensor_abcd : Fn where
  params := [n_self, n_matrix_AB]
  body :=
    block [
      .use [n_np, n_matrix_AB, n_self],
      .bind [n_tensor_abcd],
      .use [n_tensor_abcd],
      .ret]

/-- hf_response.py:234-235 `__check_op` -/
def f_HartreeFockResponse___check_op : Fn where
  params := [n_self, n_op]
  body :=
    block [
      .use [n_op, n_self],
      .ite
        (.raise)
        (.skip)]

/-- hf_response.py:237-244 `bare_response` -/
def f_HartreeFockResponse_bare_response : Fn where
  params := [n_self, n_op1, n_op2]
  body :=
    block [
      .use [n_self, n_op1, n_self, n_op2, n_np, n_op1, n_self, n_op2],
      .bind [n_chi0_op1op2],
      .use [n_chi0_op1op2],
      .ret]

/-- hf_response.py:246-253 `response` -/
def f_HartreeFockResponse_response : Fn where
  params := [n_self, n_op1, n_op2]
  body :=
    block [
      .use [n_self, n_op1, n_self, n_op2, n_np, n_op1, n_self, n_op2],
      .bind [n_chi_op1op2],
      .use [n_chi_op1op2],
      .ret]

/-- hf_response.py:255-262 `compute_chi0_k` -/
def f_HartreeFockResponse_compute_chi0_k : Fn where
  params := [n_self]
  body :=
    block [
      .bind [n_Gf],
      .use [n_Gf, n_self, n_self],
      .bind [n_chi0_k],
      .use [n_self, n_chi0_k, n_chi0_k],
      .ret]

/-- hf_response.py:265-323 `HartreeResponse` (class body) -/
def f_HartreeResponse : Fn where
  params := []
  isClass := true
  body :=
    block [
      .bind [n___init__],
      .bind [n___check_op],
      .bind [n_bare_response],
      .bind [n_response],
      .bind [n_extract_dens_dens]]

/-- hf_response.py:280-290 `__init__` -/
def f_HartreeResponse___init__ : Fn where
  params := [n_self, n_hartree_solver, n_eps]
  body :=
    block [
      .use [n_super, n_HartreeResponse, n_self, n_hartree_solver, n_np, n_self],
      .bind [n_I_ab],
      .use [n_np, n_self, n_self],
      .bind [n_U_ab],
      .use [n_np, n_self],
      .bind [n_chi0_ab],
      .use [n_chi0_ab, n_np, n_I_ab, n_U_ab, n_chi0_ab],
      .bind [n_chi_ab],
      .use [n_np, n_chi0_ab, n_self, n_np, n_chi_ab, n_self]]

/-- hf_response.py:292-297 `__check_op` -/
def f_HartreeResponse___check_op : Fn where
  params := [n_self, n_op]
  body :=
    block [
      .use [n_op, n_self],
      .ite
        (.raise)
        (.skip),
      .use [n_np, n_op, n_np, n_np, n_op, n_np, n_op]]

/-- hf_response.py:299-306 `bare_response` -/
def f_HartreeResponse_bare_response : Fn where
  params := [n_self, n_op1, n_op2]
  body :=
    block [
      .use [n_self, n_op1, n_self, n_op2, n_np, n_op1, n_self, n_op2],
      .bind [n_chi0_op1op2],
      .use [n_chi0_op1op2],
      .ret]

/-- hf_response.py:308-315 `response` -/
def f_HartreeResponse_response : Fn where
  params := [n_self, n_op1, n_op2]
  body :=
    block [
      .use [n_self, n_op1, n_self, n_op2, n_np, n_op1, n_self, n_op2],
      .bind [n_chi_op1op2],
      .use [n_chi_op1op2],
      .ret]

/-- hf_response.py:317-323 `extract_dens_dens` -/
def f_HartreeResponse_extract_dens_dens : Fn where
  params := [n_self, n_chi_abcd]
  body :=
    block [
      .use [n_chi_abcd],
      .bind [n_norb],
      .use [n_np, n_norb, n_norb, n_complex],
      .bind [n_chi_ab],
      .use [n_itertools, n_list, n_range, n_norb],
      .loop .any
        (block [
          .bind [n_i1, n_i2],
          .use [n_chi_abcd, n_i1, n_i1, n_i2, n_i2, n_chi_ab, n_i1, n_i2]])
        (.skip),
      .use [n_chi_ab],
      .ret]

/-- hf_response.py, all code of the module -/
def mod : Mod where
  top :=
    block [
      .bind [n_sys],
      .bind [n_itertools],
      .bind [n_np],
      .bind [n_np_eigh],
      .use [n_object],
      .bind [n_BaseResponse],
      .use [n_BaseResponse],
      .bind [n_HartreeFockResponse],
      .use [n_BaseResponse],
      .bind [n_HartreeResponse]]
  fns := [f_BaseResponse, f_BaseResponse___init__, f_BaseResponse__compute_drho_dop, f_BaseResponse__compute_drho_k_dop,
    f_BaseResponse__compute_chi0_ab, f_BaseResponse__compute_R_abcd, f_BaseResponse__compute_R_kabcd,
    f_BaseResponse__compute_chi0_abcd, f_BaseResponse__compute_chi0_kabcd, f_BaseResponse_logo, f_HartreeFockResponse,
    f_HartreeFockResponse___init__, f_HartreeFockResponse_mode_decomposition, f_HartreeFockResponse__to_matrix_AB,
    f_HartreeFockResponse__to_tensor_abcd, f_HartreeFockResponse___check_op, f_HartreeFockResponse_bare_response,
    f_HartreeFockResponse_response, f_HartreeFockResponse_compute_chi0_k, f_HartreeResponse, f_HartreeResponse___init__,
    f_HartreeResponse___check_op, f_HartreeResponse_bare_response, f_HartreeResponse_response,
    f_HartreeResponse_extract_dens_dens]

end Verif.Names.HfResponse
