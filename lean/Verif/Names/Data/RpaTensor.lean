import Verif.Names.Data.Ids

/-!
# `python/triqs_tprf/rpa_tensor.py`

Written by `/verif/tools/names_extract.py`.
-/

set_option linter.style.nameCheck false

namespace Verif.Names.RpaTensor

/-- rpa_tensor.py:46-55 `fundamental_operators_from_gf_struct` -/
def f_fundamental_operators_from_gf_struct : Fn where
  params := [n_gf_struct]
  body :=
    block [
      .use [n_fix_gf_struct_type, n_gf_struct],
      .bind [n_gf_struct],
      .bind [n_fundamental_operators],
      .use [n_gf_struct],
      .loop .any
        (block [
          .bind [n_block, n_block_size],
          .use [n_range, n_block_size],
          .loop .any
            (block [
              .bind [n_idx],
              .use [n_fundamental_operators, n_c, n_block, n_idx]])
            (.skip)])
        (.skip),
      .use [n_fundamental_operators],
      .ret]

/-- rpa_tensor.py:58-70 `get_rpa_tensor` -/
def f_get_rpa_tensor : Fn where
  params := [n_H_int, n_fundamental_operators]
  body :=
    block [
      .use [n_quartic_tensor_from_operator, n_H_int, n_fundamental_operators],
      .bind [n_U_abcd],
      .use [n_quartic_permutation_symmetrize, n_U_abcd],
      .bind [n_U_abcd],
      .use [n_np, n_np, n_U_abcd],
      .bind [n_Gamma_RPA_abcd],
      .use [n_Gamma_RPA_abcd],
      .ret]

/-- rpa_tensor.py:73-84 `get_gamma_rpa` -/
def f_get_gamma_rpa : Fn where
  params := [n_chi0_wnn, n_U_abcd]
  body :=
    block [
      .use [n_chi0_wnn],
      .bind [n_gamma_wnn],
      .use [n_chi0_wnn],
      .bind [n_beta],
      .use [n_U_abcd, n_beta, n_gamma_wnn, n_gamma_wnn],
      .ret]

/-- rpa_tensor.py:87-120 `kanamori_charge_and_spin_quartic_interaction_tensors` -/
def f_kanamori_charge_and_spin_quartic_interaction_tensors : Fn where
  params := [n_norb, n_U, n_Up, n_J, n_Jp]
  body :=
    block [
      .use [n_norb],
      .bind [n_shape],
      .use [n_np, n_shape, n_complex, n_np, n_shape, n_complex],
      .bind [n_U_c, n_U_s],
      .use [n_itertools, n_list, n_range, n_norb],
      .loop .any
        (block [
          .bind [n_a, n_abar, n_b, n_bbar],
          .bind [n_scalar_c, n_scalar_s],
          .use [n_a, n_abar],
          .ite
            (block [
              .use [n_a, n_b],
              .ite
                (.use [n_b, n_bbar])
                (.skip)])
            (.skip),
          .ite
            (block [
              .use [n_U],
              .bind [n_scalar_c],
              .use [n_U],
              .bind [n_scalar_s]])
            (.skip),
          .use [n_a, n_bbar],
          .ite
            (block [
              .use [n_a, n_b],
              .ite
                (.use [n_abar, n_b])
                (.skip)])
            (.skip),
          .ite
            (block [
              .use [n_Up, n_J],
              .bind [n_scalar_c],
              .use [n_Up],
              .bind [n_scalar_s]])
            (.skip),
          .use [n_a, n_abar],
          .ite
            (block [
              .use [n_a, n_b],
              .ite
                (.use [n_b, n_bbar])
                (.skip)])
            (.skip),
          .ite
            (block [
              .use [n_Up, n_J],
              .bind [n_scalar_c],
              .use [n_J],
              .bind [n_scalar_s]])
            (.skip),
          .use [n_a, n_b],
          .ite
            (block [
              .use [n_a, n_abar],
              .ite
                (.use [n_abar, n_bbar])
                (.skip)])
            (.skip),
          .ite
            (block [
              .use [n_Jp],
              .bind [n_scalar_c],
              .use [n_Jp],
              .bind [n_scalar_s]])
            (.skip),
          .use [n_scalar_c, n_U_c, n_a, n_abar, n_b, n_bbar, n_scalar_s, n_U_s, n_a, n_abar, n_b, n_bbar]])
        (.skip),
      .use [n_U_c, n_U_s],
      .ret]

/-- rpa_tensor.py:123-172 `split_quartic_tensor_in_charge_and_spin` -/
def f_split_quartic_tensor_in_charge_and_spin : Fn where
  params := [n_U_4]
  body :=
    block [
      .use [n_np, n_U_4],
      .bind [n_shape_4],
      .use [n_np, n_shape_4],
      .bind [n_shape_8],
      .use [n_U_4, n_shape_8],
      .bind [n_U_8],
      .use [n_np, n_U_8],
      .bind [n_U_8],
      .use [n_np, n_U_8],
      .bind [n_zeros],
      .use [n_np, n_U_8, n_zeros, n_np, n_U_8, n_zeros, n_np, n_U_8, n_zeros, n_np, n_U_8, n_zeros, n_np, n_U_8, n_zeros, n_np, n_U_8, n_zeros, n_np,
        n_U_8, n_zeros, n_np, n_U_8, n_zeros, n_np, n_U_8, n_zeros, n_np, n_U_8, n_zeros, n_U_8, n_U_8],
      .bind [n_U_c],
      .use [n_U_8, n_U_8],
      .bind [n_U_s],
      .use [n_U_c, n_U_s],
      .ret]

/-- rpa_tensor.py:175-195 `quartic_tensor_from_charge_and_spin` -/
def f_quartic_tensor_from_charge_and_spin : Fn where
  params := [n_U_c, n_U_s]
  body :=
    block [
      .use [n_U_c],
      .bind [n_shape_4],
      .use [n_list, n_shape_4],
      .bind [n_shape_8],
      .use [n_np, n_shape_8, n_U_c],
      .bind [n_U_8],
      .use [n_U_c, n_U_s],
      .bind [n_U_uu],
      .use [n_U_c, n_U_s],
      .bind [n_U_ud],
      .use [n_itertools, n_list, n_range],
      .loop .any
        (block [
          .bind [n_s1, n_s2],
          .use [n_s1, n_s2],
          .ite
            (.use [n_U_uu, n_U_8, n_s1, n_s1, n_s1, n_s1])
            (.use [n_U_ud, n_U_8, n_s1, n_s1, n_s2, n_s2, n_U_s, n_U_8, n_s1, n_s2, n_s2, n_s1])])
        (.skip),
      .use [n_np, n_U_8],
      .bind [n_U_8],
      .use [n_U_8, n_np, n_shape_4],
      .bind [n_U_4],
      .use [n_U_4],
      .ret]

/-- rpa_tensor.py:198-233 `kanamori_quartic_tensor` -/
def f_kanamori_quartic_tensor : Fn where
  params := [n_norb, n_U, n_Up, n_J, n_Jp]
  body :=
    block [
      .use [n_kanamori_charge_and_spin_quartic_interaction_tensors, n_norb, n_U, n_Up, n_J, n_Jp],
      .bind [n_U_c, n_U_s],
      .use [n_quartic_tensor_from_charge_and_spin, n_U_c, n_U_s],
      .bind [n_U],
      .use [n_U],
      .ret]

/-- rpa_tensor.py:236-256 `lose_spin_degree_of_freedom` -/
def f_lose_spin_degree_of_freedom : Fn where
  params := [n_gf, n_spin_fast]
  body :=
    block [
      .use [n_gf],
      .bind [n_norb],
      .use [n_spin_fast],
      .ifv n_spin_fast
        (block [
          .use [n_gf, n_slice],
          .bind [n_idx]])
        (block [
          .use [n_gf, n_slice, n_norb],
          .bind [n_idx]]),
      .use [n_gf, n_idx],
      .ret]

/-- rpa_tensor.py:259-299 `general_susceptibility_from_charge_and_spin` -/
def f_general_susceptibility_from_charge_and_spin : Fn where
  params := [n_chi_c, n_chi_s, n_spin_fast]
  body :=
    block [
      .use [n_chi_c],
      .bind [n_norb],
      .use [n_chi_c],
      .bind [n_rank],
      .use [n_chi_c],
      .bind [n_target_rank],
      .use [n_Gf, n_chi_c, n_target_rank, n_norb],
      .bind [n_chi_general],
      .use [n_chi_c, n_chi_s],
      .bind [n_chi_uu],
      .use [n_chi_c, n_chi_s],
      .bind [n_chi_ud],
      .use [n_chi_s],
      .bind [n_chi_xud],
      .use [n_rank, n_slice],
      .bind [n_idx_rank],
      .use [n_spin_fast],
      .ifv n_spin_fast
        (block [
          .use [n_slice],
          .bind [n_up],
          .use [n_slice],
          .bind [n_down]])
        (block [
          .use [n_slice, n_norb],
          .bind [n_up],
          .use [n_slice, n_norb],
          .bind [n_down]]),
      .use [n_chi_uu, n_chi_general, n_idx_rank, n_up, n_up, n_up, n_up, n_chi_uu, n_chi_general, n_idx_rank, n_down, n_down, n_down, n_down,
        n_chi_ud, n_chi_general, n_idx_rank, n_up, n_up, n_down, n_down, n_chi_ud, n_chi_general, n_idx_rank, n_down, n_down, n_up, n_up, n_chi_xud,
        n_chi_general, n_idx_rank, n_up, n_down, n_down, n_up, n_chi_xud, n_chi_general, n_idx_rank, n_down, n_up, n_up, n_down, n_chi_general],
      .ret]

/-- rpa_tensor.py:302-356 `charge_and_spin_susceptibility_from_general` -/
def f_charge_and_spin_susceptibility_from_general : Fn where
  params := [n_chi, n_spin_fast, n_check_spin_conservation]
  body :=
    block [
      .use [n_chi],
      .bind [n_norb],
      .use [n_chi],
      .bind [n_rank],
      .use [n_chi],
      .bind [n_target_rank],
      .use [n_rank, n_slice],
      .bind [n_idx_rank],
      .use [n_spin_fast],
      .ifv n_spin_fast
        (block [
          .use [n_slice],
          .bind [n_up],
          .use [n_slice],
          .bind [n_down]])
        (block [
          .use [n_slice, n_norb],
          .bind [n_up],
          .use [n_slice, n_norb],
          .bind [n_down]]),
      .use [n_check_spin_conservation],
      .ifv n_check_spin_conservation
        (.use [n_np, n_chi, n_up, n_up, n_up, n_down, n_np, n_chi, n_up, n_up, n_down, n_up, n_np, n_chi, n_up, n_down, n_up, n_up, n_np, n_chi,
          n_down, n_up, n_up, n_up, n_np, n_chi, n_down, n_down, n_down, n_up, n_np, n_chi, n_down, n_down, n_up, n_down, n_np, n_chi, n_down, n_up,
          n_down, n_down, n_np, n_chi, n_up, n_down, n_down, n_down, n_np, n_chi, n_up, n_down, n_up, n_down, n_np, n_chi, n_down, n_up, n_down, n_up])
        (.skip),
      .use [n_chi, n_up, n_up, n_up, n_up],
      .bind [n_chi_uu],
      .use [n_chi, n_up, n_up, n_down, n_down],
      .bind [n_chi_ud],
      .use [n_chi_uu, n_chi_ud],
      .bind [n_chi_s],
      .use [n_chi_uu, n_chi_ud],
      .bind [n_chi_c],
      .use [n_chi_c, n_chi_s],
      .ret]

/-- rpa_tensor.py, all code of the module -/
def mod : Mod where
  top :=
    block [
      .bind [n_itertools],
      .bind [n_np],
      .bind [n_Gf],
      .bind [n_fix_gf_struct_type],
      .bind [n_n, n_c, n_c_dag, n_Operator, n_dagger],
      .bind [n_quartic_tensor_from_operator],
      .bind [n_operator_from_quartic_tensor],
      .bind [n_symmetrize_quartic_tensor],
      .bind [n_quartic_permutation_symmetrize],
      .bind [n_quartic_conjugation_symmetrize],
      .bind [n_quartic_pauli_symmetrize],
      .bind [n_fundamental_operators_from_gf_struct],
      .bind [n_get_rpa_tensor],
      .bind [n_get_gamma_rpa],
      .bind [n_kanamori_charge_and_spin_quartic_interaction_tensors],
      .bind [n_split_quartic_tensor_in_charge_and_spin],
      .bind [n_quartic_tensor_from_charge_and_spin],
      .bind [n_kanamori_quartic_tensor],
      .bind [n_lose_spin_degree_of_freedom],
      .bind [n_general_susceptibility_from_charge_and_spin],
      .bind [n_charge_and_spin_susceptibility_from_general]]
  fns := [f_fundamental_operators_from_gf_struct, f_get_rpa_tensor, f_get_gamma_rpa,
    f_kanamori_charge_and_spin_quartic_interaction_tensors, f_split_quartic_tensor_in_charge_and_spin,
    f_quartic_tensor_from_charge_and_spin, f_kanamori_quartic_tensor, f_lose_spin_degree_of_freedom,
    f_general_susceptibility_from_charge_and_spin, f_charge_and_spin_susceptibility_from_general]

end Verif.Names.RpaTensor
