import Verif.Names.Data.Ids

/-!
# `python/triqs_tprf/OperatorUtils.py`

Written by `/verif/tools/names_extract.py`.
-/

set_option linter.style.nameCheck false

namespace Verif.Names.OperatorUtils

/-- OperatorUtils.py:38-51 `fundamental_operators_from_gf_struct` -/
def f_fundamental_operators_from_gf_struct : Fn where
  params := [n_gf_struct]
  body :=
    block [
      .use [n_fix_gf_struct_type, n_gf_struct],
      .bind [n_gf_struct],
      .bind [n_fundamental_operators],
      .use [n_gf_struct],
      .loop .any
        (block [
          .bind [n_block_name, n_block_size],
          .use [n_range, n_block_size],
          .loop .any
            (block [
              .bind [n_idx],
              .use [n_fundamental_operators, n_c, n_block_name, n_idx]])
            (.skip)])
        (.skip),
      .use [n_fundamental_operators],
      .ret]

/-- OperatorUtils.py:54-65 `get_quadratic_operator` -/
def f_get_quadratic_operator : Fn where
  params := [n_h, n_fundamental_operators]
  body :=
    block [
      .use [n_np, n_h, n_h, n_Operator],
      .bind [n_H],
      .use [n_enumerate, n_fundamental_operators],
      .loop .any
        (block [
          .bind [n_idx1, n_o1],
          .use [n_dagger, n_o1],
          .bind [n_o1],
          .use [n_enumerate, n_fundamental_operators],
          .loop .any
            (block [
              .bind [n_idx2, n_o2],
              .use [n_H, n_h, n_idx1, n_idx2, n_o1, n_o2],
              .bind [n_H]])
            (.skip)])
        (.skip),
      .use [n_H],
      .ret]

/-- OperatorUtils.py:68-82 `op_is_fundamental` -/
def f_op_is_fundamental : Fn where
  params := [n_op]
  body :=
    block [
      .use [n_list, n_op],
      .bind [n_monomial_sum],
      .use [n_len, n_monomial_sum],
      .ite
        (.ret)
        (.skip),
      .use [n_monomial_sum],
      .bind [n_monomial],
      .use [n_monomial],
      .bind [n_operator_list, n_prefactor],
      .use [n_len, n_operator_list],
      .ite
        (.ret)
        (.skip),
      .ret]

/-- OperatorUtils.py:85-92 `op_serialize_fundamental` -/
def f_op_serialize_fundamental : Fn where
  params := [n_op]
  body :=
    block [
      .use [n_op_is_fundamental, n_op],
      .ite
        (.raise)
        (.skip),
      .use [n_list, n_op],
      .bind [n_dag, n_idxs],
      .use [n_dag, n_tuple, n_idxs],
      .ret]

/-- OperatorUtils.py:95-109 `get_operator_index_map` -/
def f_get_operator_index_map : Fn where
  params := [n_fundamental_operators, n_include_dag]
  body :=
    block [
      .bind [n_op_idx_map],
      .use [n_fundamental_operators],
      .loop .any
        (block [
          .bind [n_op],
          .use [n_op_serialize_fundamental, n_op],
          .bind [n_dag, n_idxs],
          .use [n_include_dag],
          .ifv n_include_dag
            (.use [n_op_idx_map, n_dag, n_tuple, n_idxs])
            (block [
              .use [n_dag],
              .ite
                (.raise)
                (.skip),
              .use [n_op_idx_map, n_tuple, n_idxs]])])
        (.skip),
      .use [n_op_idx_map],
      .ret]

/-- OperatorUtils.py:112-133 `quadratic_matrix_from_operator` -/
def f_quadratic_matrix_from_operator : Fn where
  params := [n_op, n_fundamental_operators]
  body :=
    block [
      .use [n_get_operator_index_map, n_fundamental_operators],
      .bind [n_op_idx_map],
      .use [n_set, n_op_idx_map],
      .bind [n_op_idx_set],
      .use [n_len, n_fundamental_operators],
      .bind [n_nop],
      .use [n_np, n_nop, n_nop, n_complex],
      .bind [n_h_quad],
      .use [n_op],
      .loop .any
        (block [
          .bind [n_term],
          .use [n_term],
          .bind [n_op_list, n_prefactor],
          .use [n_len, n_op_list],
          .ite
            (block [
              .use [n_list, n_op_list],
              .bind [n_d1, n_t1, n_d2, n_t2],
              .use [n_tuple, n_t1, n_tuple, n_t2],
              .bind [n_t1, n_t2],
              .use [n_d1],
              .ite
                (.use [n_d2])
                (.skip),
              .ite
                (.raise)
                (.skip),
              .use [n_t1, n_op_idx_set],
              .ite
                (.use [n_t2, n_op_idx_set])
                (.skip),
              .ite
                (block [
                  .use [n_op_idx_map, n_t1, n_op_idx_map, n_t2],
                  .bind [n_i, n_j],
                  .use [n_prefactor, n_h_quad, n_i, n_j]])
                (.skip)])
            (.skip)])
        (.skip),
      .use [n_h_quad],
      .ret]

/-- OperatorUtils.py:136-141 `quartic_permutation_symmetrize` -/
def f_quartic_permutation_symmetrize : Fn where
  params := [n_U]
  body :=
    block [
      .use [n_U, n_np, n_U],
      .bind [n_U],
      .use [n_U, n_np, n_U],
      .bind [n_U],
      .use [n_U],
      .ret]

/-- OperatorUtils.py:144-148 `quartic_conjugation_symmetrize` -/
def f_quartic_conjugation_symmetrize : Fn where
  params := [n_U]
  body :=
    block [
      .use [n_U, n_np, n_np, n_U],
      .bind [n_U],
      .use [n_U],
      .ret]

/-- OperatorUtils.py:151-160 `quartic_pauli_symmetrize` -/
def f_quartic_pauli_symmetrize : Fn where
  params := [n_U]
  body :=
    block [
      .use [n_U],
      .bind [n_N],
      .use [n_U, n_tuple, n_N],
      .ite
        (.raise)
        (.skip),
      .use [n_range, n_N],
      .loop .any
        (block [
          .bind [n_n],
          .use [n_U, n_n, n_n, n_U, n_n, n_n]])
        (.skip),
      .use [n_U],
      .ret]

/-- OperatorUtils.py:163-189 `symmetrize_quartic_tensor` -/
def f_symmetrize_quartic_tensor : Fn where
  params := [n_U, n_conjugation]
  body :=
    block [
      .use [n_U],
      .bind [n_N],
      .use [n_U, n_tuple, n_N],
      .ite
        (.raise)
        (.skip),
      .use [n_quartic_permutation_symmetrize, n_U],
      .bind [n_U],
      .use [n_conjugation],
      .ifv n_conjugation
        (block [
          .use [n_quartic_conjugation_symmetrize, n_U],
          .bind [n_U]])
        (.skip),
      .use [n_quartic_pauli_symmetrize, n_U],
      .bind [n_U],
      .use [n_U],
      .ret]

/-- OperatorUtils.py:192-230 `quartic_tensor_from_operator` -/
def f_quartic_tensor_from_operator : Fn where
  params := [n_op, n_fundamental_operators, n_perm_sym]
  body :=
    block [
      .use [n_get_operator_index_map, n_fundamental_operators],
      .bind [n_op_idx_map],
      .use [n_set, n_op_idx_map],
      .bind [n_op_idx_set],
      .use [n_len, n_fundamental_operators],
      .bind [n_nop],
      .use [n_np, n_nop, n_nop, n_nop, n_nop, n_complex],
      .bind [n_h_quart],
      .use [n_op],
      .loop .any
        (block [
          .bind [n_term],
          .use [n_term],
          .bind [n_op_list, n_prefactor],
          .use [n_len, n_op_list],
          .ite
            (block [
              .use [n_list, n_zip, n_op_list],
              .bind [n_d, n_t],
              .use [n_t],
              .ite
                (.use [n_tuple])
                (.skip),
              .bind [n_t],
              .use [n_d],
              .ite
                (.raise)
                (.skip),
              .use [n_all, n_t],
              .ite
                (.use [n_op_idx_set])
                (.skip),
              .ite
                (block [
                  .use [n_t],
                  .ite
                    (.use [n_op_idx_map])
                    (.skip),
                  .bind [n_i, n_j, n_k, n_l],
                  .use [n_perm_sym],
                  .ifv n_perm_sym
                    (.use [n_prefactor, n_h_quart, n_i, n_j, n_k, n_l, n_prefactor, n_h_quart, n_j, n_i, n_k, n_l, n_prefactor, n_h_quart, n_j, n_i,
                      n_l, n_k, n_prefactor, n_h_quart, n_i, n_j, n_l, n_k])
                    (.use [n_prefactor, n_h_quart, n_i, n_j, n_k, n_l])])
                (.skip)])
            (.skip)])
        (.skip),
      .use [n_h_quart],
      .ret]

/-- OperatorUtils.py:233-251 `operator_from_quartic_tensor` -/
def f_operator_from_quartic_tensor : Fn where
  params := [n_h_quart, n_fundamental_operators]
  body :=
    block [
      .use [n_get_operator_index_map, n_fundamental_operators],
      .bind [n_op_idx_map],
      .use [n_set, n_op_idx_map],
      .bind [n_op_idx_set],
      .use [n_len, n_fundamental_operators],
      .bind [n_nop],
      .use [n_Operator],
      .bind [n_H],
      .use [n_itertools, n_enumerate, n_fundamental_operators],
      .loop .any
        (block [
          .bind [n_t],
          .use [n_list, n_zip, n_t],
          .bind [n_idx, n_ops],
          .use [n_ops],
          .bind [n_o1, n_o2, n_o3, n_o4],
          .use [n_dagger, n_o1, n_dagger, n_o2],
          .bind [n_o1, n_o2],
          .use [n_H, n_h_quart, n_idx, n_o1, n_o2, n_o3, n_o4],
          .bind [n_H]])
        (.skip),
      .use [n_H],
      .ret]

/-- OperatorUtils.py:254-309 `operator_single_particle_transform` -/
def f_operator_single_particle_transform : Fn where
  params := [n_op, n_U, n_fundamental_operators]
  body :=
    block [
      .use [n_get_operator_index_map, n_fundamental_operators],
      .bind [n_op_idx_map],
      .use [n_set, n_op_idx_map],
      .bind [n_op_idx_set],
      .clo [n_U, n_op_idx_map, n_op_idx_set],
      .bind [n_c_transf],
      .bind [n_op_trans_dict],
      .use [n_fundamental_operators],
      .loop .any
        (block [
          .bind [n_fop],
          .use [n_op_serialize_fundamental, n_fop],
          .bind [n_dag, n_idxs],
          .use [n_c_transf, n_idxs, n_op_trans_dict, n_dag, n_idxs, n_dagger, n_c_transf, n_idxs, n_op_trans_dict, n_dag, n_idxs]])
        (.skip),
      .use [n_Operator],
      .bind [n_op_trans],
      .use [n_op],
      .loop .any
        (block [
          .bind [n_term],
          .use [n_Operator],
          .bind [n_op_factor],
          .use [n_term],
          .loop .any
            (block [
              .bind [n_factor],
              .use [n_type, n_factor, n_list],
              .ite
                (block [
                  .use [n_factor],
                  .loop .any
                    (block [
                      .bind [n_dag, n_idxs],
                      .use [n_dag, n_tuple, n_idxs],
                      .bind [n_tup],
                      .use [n_tup, n_list, n_op_trans_dict],
                      .ite
                        (block [
                          .use [n_op_factor, n_op_trans_dict, n_tup],
                          .bind [n_op_factor]])
                        (block [
                          .use [n_op_factor, n_c, n_c_dag, n_dag, n_idxs],
                          .bind [n_op_factor]])])
                    (.skip)])
                (block [
                  .use [n_op_factor, n_factor],
                  .bind [n_op_factor]])])
            (.skip),
          .use [n_op_trans, n_op_factor],
          .bind [n_op_trans]])
        (.skip),
      .use [n_op_trans],
      .ret]

/-- OperatorUtils.py:267-278 `c_transf` -/
def f_operator_single_particle_transform_c_transf : Fn where
  params := [n_s, n_i]
  outer := [n_U, n_op_idx_map, n_op_idx_set]
  body :=
    block [
      .use [n_s, n_i, n_op_idx_set],
      .ite
        (block [
          .use [n_c, n_s, n_i],
          .ret])
        (.skip),
      .use [n_op_idx_map, n_s, n_i],
      .bind [n_k],
      .use [n_Operator],
      .bind [n_ret],
      .use [n_range, n_U],
      .loop .any
        (block [
          .bind [n_l],
          .use [n_op_idx_map, n_l],
          .bind [n_op_idx],
          .use [n_ret, n_U, n_k, n_l, n_c, n_op_idx],
          .bind [n_ret]])
        (.skip),
      .use [n_ret],
      .ret]

/-- OperatorUtils.py:312-344 `relabel_operators` -/
def f_relabel_operators : Fn where
  params := [n_op, n_from_list, n_to_list]
  body :=
    block [
      .use [n_get_operator_index_map, n_from_list],
      .bind [n_op_idx_map],
      .use [n_set, n_op_idx_map],
      .bind [n_op_idx_set],
      .use [n_list, n_from_list, n_list, n_to_list],
      .bind [n_from_list, n_to_list],
      .use [n_Operator],
      .bind [n_op_trans],
      .use [n_op],
      .loop .any
        (block [
          .bind [n_term],
          .use [n_Operator],
          .bind [n_op_factor],
          .use [n_term],
          .loop .any
            (block [
              .bind [n_factor],
              .use [n_type, n_factor, n_list],
              .ite
                (block [
                  .use [n_factor],
                  .loop .any
                    (block [
                      .bind [n_dag, n_idxs],
                      .use [n_dag, n_tuple, n_idxs],
                      .bind [n_tup],
                      .use [n_tup, n_op_idx_set],
                      .ite
                        (block [
                          .use [n_op_factor, n_to_list, n_op_idx_map, n_tup],
                          .bind [n_op_factor]])
                        (block [
                          .use [n_op_factor, n_c, n_c_dag, n_dag, n_idxs],
                          .bind [n_op_factor]])])
                    (.skip)])
                (block [
                  .use [n_op_factor, n_factor],
                  .bind [n_op_factor]])])
            (.skip),
          .use [n_op_trans, n_op_factor],
          .bind [n_op_trans]])
        (.skip),
      .use [n_op_trans],
      .ret]

/-- OperatorUtils.py:347-364 `is_operator_composed_of_only_fundamental_operators` -/
def f_is_operator_composed_of_only_fundamental_operators : Fn where
  params := [n_op, n_fundamental_operators]
  body :=
    block [
      .bind [n_is_fundamental],
      .use [n_op],
      .loop .any
        (block [
          .bind [n_term],
          .use [n_term],
          .bind [n_op_list, n_prefactor],
          .use [n_list, n_zip, n_op_list],
          .bind [n_d, n_t],
          .use [n_t],
          .ite
            (.use [n_tuple])
            (.skip),
          .bind [n_t],
          .use [n_t],
          .loop .any
            (block [
              .bind [n_bidx, n_idx],
              .use [n_c, n_bidx, n_idx, n_fundamental_operators],
              .ite
                (.bind [n_is_fundamental])
                (.skip)])
            (.skip)])
        (.skip),
      .use [n_is_fundamental],
      .ret]

/-- OperatorUtils.py, all code of the module -/
def mod : Mod where
  top :=
    block [
      .bind [n_itertools],
      .bind [n_np],
      .bind [n_fix_gf_struct_type],
      .bind [n_c, n_c_dag, n_Operator, n_dagger],
      .bind [n_fundamental_operators_from_gf_struct],
      .bind [n_get_quadratic_operator],
      .bind [n_op_is_fundamental],
      .bind [n_op_serialize_fundamental],
      .bind [n_get_operator_index_map],
      .bind [n_quadratic_matrix_from_operator],
      .bind [n_quartic_permutation_symmetrize],
      .bind [n_quartic_conjugation_symmetrize],
      .bind [n_quartic_pauli_symmetrize],
      .bind [n_symmetrize_quartic_tensor],
      .bind [n_quartic_tensor_from_operator],
      .bind [n_operator_from_quartic_tensor],
      .bind [n_operator_single_particle_transform],
      .bind [n_relabel_operators],
      .bind [n_is_operator_composed_of_only_fundamental_operators]]
  fns := [f_fundamental_operators_from_gf_struct, f_get_quadratic_operator, f_op_is_fundamental, f_op_serialize_fundamental,
    f_get_operator_index_map, f_quadratic_matrix_from_operator, f_quartic_permutation_symmetrize,
    f_quartic_conjugation_symmetrize, f_quartic_pauli_symmetrize, f_symmetrize_quartic_tensor, f_quartic_tensor_from_operator,
    f_operator_from_quartic_tensor, f_operator_single_particle_transform, f_operator_single_particle_transform_c_transf,
    f_relabel_operators, f_is_operator_composed_of_only_fundamental_operators]

end Verif.Names.OperatorUtils
