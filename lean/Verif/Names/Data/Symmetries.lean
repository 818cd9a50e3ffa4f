import Verif.Names.Data.Ids

/-!
# `python/triqs_tprf/symmetries.py`

Written by `/verif/tools/names_extract.py`.
-/

set_option linter.style.nameCheck false

namespace Verif.Names.Symmetries

/-- symmetries.py:27-71 `enforce_symmetry` -/
def f_enforce_symmetry : Fn where
  params := [n_gf, n_variables, n_symmetries]
  body :=
    block [
      .use [n_type, n_variables, n_str],
      .ite
        (block [
          .use [n_variables],
          .bind [n_variables]])
        (.skip),
      .use [n_type, n_symmetries, n_str],
      .ite
        (block [
          .use [n_symmetries],
          .bind [n_symmetries]])
        (.skip),
      .use [n_len, n_variables, n_len, n_symmetries],
      .ite
        (block [
          .use [n_ValueError],
          .raise])
        (.skip),
      .use [n__symmetrize_frequency, n__symmetrize_momentum, n__symmetrize_orbital],
      .bind [n_variable_symmetrize_fct],
      .use [n_variables],
      .loop .any
        (block [
          .bind [n_variable],
          .use [n_variable, n_list, n_variable_symmetrize_fct],
          .ite
            (block [
              .use [n_ValueError],
              .raise])
            (.skip)])
        (.skip),
      .use [n_symmetries],
      .loop .any
        (block [
          .bind [n_symmetry],
          .use [n_symmetry],
          .ite
            (block [
              .use [n_ValueError],
              .raise])
            (.skip)])
        (.skip),
      .use [n_gf],
      .bind [n_gf_symmetrized],
      .use [n_zip, n_variables, n_symmetries],
      .loop .any
        (block [
          .bind [n_variable, n_symmetry],
          .use [n_variable_symmetrize_fct, n_variable],
          .bind [n_symmetrize_fct],
          .use [n_symmetrize_fct, n_gf_symmetrized, n_symmetry]])
        (.skip),
      .use [n_gf_symmetrized],
      .ret]

/-- symmetries.py:73-98 `check_symmetry` -/
def f_check_symmetry : Fn where
  params := [n_gf, n_atol]
  body :=
    block [
      .use [n__check_frequency_symmetry, n__check_momentum_symmetry, n__check_orbital_symmetry],
      .bind [n_variable_check_symmetry],
      .bind [n_variable_symmetry],
      .use [n_list, n_variable_check_symmetry],
      .loop .any
        (block [
          .bind [n_variable, n_check_symmetry_fct],
          .use [n_check_symmetry_fct, n_gf, n_atol, n_variable_symmetry, n_variable]])
        (.skip),
      .use [n_variable_symmetry],
      .ret]

/-- symmetries.py:100-103 `_average_halfs` -/
def f__average_halfs : Fn where
  params := [n_half_1, n_half_2]
  body :=
    block [
      .use [n_half_2],
      .ret]

/-- symmetries.py:105-115 `_overall_sign` -/
def f__overall_sign : Fn where
  params := [n_signs]
  body :=
    block [
      .use [n_set, n_signs],
      .bind [n_signs],
      .use [n_len, n_signs],
      .ite
        (block [
          .use [n_signs],
          .ret])
        (.skip),
      .ret]

/-- symmetries.py:119-141 `_split_frequency` -/
def f__split_frequency : Fn where
  params := [n_gf]
  body :=
    block [
      .use [n_gf],
      .ite
        (block [
          .use [n_ValueError],
          .raise])
        (.skip),
      .use [n_gf],
      .bind [n_nw_half],
      .use [n_gf, n_nw_half],
      .bind [n_negative_half],
      .use [n_gf, n_nw_half],
      .bind [n_positive_half],
      .use [n_negative_half, n_positive_half],
      .ret]

/-- symmetries.py:143-165 `_check_frequency_symmetry` -/
def f__check_frequency_symmetry : Fn where
  params := [n_gf, n_atol]
  body :=
    block [
      .use [n__split_frequency, n_gf],
      .bind [n_negative_half, n_positive_half],
      .use [n_np, n_negative_half, n_positive_half, n_atol],
      .ite
        (.ret)
        (block [
          .use [n_np, n_negative_half, n_positive_half, n_atol],
          .ite
            (.ret)
            (.skip)]),
      .ret]

/-- symmetries.py:167-189 `_symmetrize_frequency` -/
def f__symmetrize_frequency : Fn where
  params := [n_gf, n_symmetry]
  body :=
    block [
      .use [n__split_frequency, n_gf],
      .bind [n_negative_half, n_positive_half],
      .use [n__average_halfs, n_negative_half, n_positive_half],
      .bind [n_avg],
      .use [n_avg, n_positive_half, n_symmetry],
      .ite
        (.use [n_avg, n_negative_half])
        (.use [n_avg, n_negative_half])]

/-- symmetries.py:193-215 `_invert_momentum` -/
def f__invert_momentum : Fn where
  params := [n_momentum, n_momentum_mesh]
  body :=
    block [
      .use [n_np, n_momentum],
      .bind [n_momentum],
      .use [n_np, n_momentum_mesh],
      .bind [n_momentum_mesh],
      .use [n_momentum_mesh, n_momentum],
      .bind [n_inv_k],
      .use [n_inv_k, n_momentum_mesh],
      .bind [n_inv_k],
      .use [n_tuple, n_inv_k],
      .bind [n_inv_k],
      .use [n_inv_k],
      .ret]

/-- symmetries.py:217-248 `_split_momentum` -/
def f__split_momentum : Fn where
  params := [n_gf]
  body :=
    block [
      .use [n_gf],
      .bind [n_nk],
      .use [n_gf],
      .bind [n_momentum_mesh],
      .use [n_momentum_mesh],
      .bind [n_momentum_mesh],
      .use [n_range, n_nk],
      .loop .any
        (block [
          .bind [n_idx],
          .use [n_np, n_idx, n_momentum_mesh],
          .bind [n_unraveled_idx],
          .use [n__invert_momentum, n_unraveled_idx, n_momentum_mesh],
          .bind [n_unraveled_inv_idx],
          .use [n_np, n_unraveled_inv_idx, n_momentum_mesh],
          .bind [n_inv_idx],
          .use [n_gf, n_slice, n_idx],
          .bind [n_positive_half],
          .use [n_gf, n_slice, n_inv_idx],
          .bind [n_negative_half],
          .use [n_idx, n_inv_idx],
          .ite
            (.use [n_positive_half, n_positive_half])
            (.use [n_positive_half, n_negative_half])])
        (.skip)]

/-- symmetries.py:250-288 `_check_momentum_symmetry` -/
def f__check_momentum_symmetry : Fn where
  params := [n_gf, n_atol]
  body :=
    block [
      .bind [n_signs],
      .use [n__split_momentum, n_gf],
      .loop .any
        (block [
          .bind [n_positive_half, n_negative_half],
          .use [n_np, n_positive_half, n_atol],
          .ite
            (.use [n_np, n_negative_half, n_atol])
            (.skip),
          .ite
            (.cont)
            (.skip),
          .use [n_id, n_positive_half, n_id, n_negative_half],
          .ite
            (block [
              .use [n_np, n_positive_half],
              .ite
                (.use [n_signs])
                (.skip),
              .cont])
            (.skip),
          .use [n_np, n_positive_half, n_negative_half, n_atol],
          .ite
            (.use [n_signs])
            (block [
              .use [n_np, n_positive_half, n_negative_half, n_atol],
              .ite
                (.use [n_signs])
                (.ret)])])
        (.skip),
      .use [n__overall_sign, n_signs],
      .ret]

/-- symmetries.py:290-318 `_symmetrize_momentum` -/
def f__symmetrize_momentum : Fn where
  params := [n_gf, n_symmetry]
  body :=
    block [
      .use [n__split_momentum, n_gf],
      .loop .any
        (block [
          .bind [n_positive_half, n_negative_half],
          .use [n_id, n_positive_half, n_id, n_negative_half],
          .ite
            (block [
              .use [n_symmetry],
              .ite
                (block [
                  .use [n_positive_half],
                  .bind [n_positive_half]])
                (.skip),
              .cont])
            (.skip),
          .use [n__average_halfs, n_positive_half, n_negative_half],
          .bind [n_avg],
          .use [n_avg, n_positive_half, n_symmetry],
          .ite
            (.use [n_avg, n_negative_half])
            (.use [n_avg, n_negative_half])])
        (.skip)]

/-- symmetries.py:322-351 `_split_orbital_triangle` -/
def f__split_orbital_triangle : Fn where
  params := [n_gf]
  body :=
    block [
      .use [n_gf],
      .bind [n_target_shape],
      .use [n_len, n_target_shape],
      .bind [n_nparticle],
      .use [n_nparticle],
      .ite
        (block [
          .use [n_ValueError],
          .raise])
        (.skip),
      .use [n_target_shape],
      .bind [n_norb],
      .use [n_slice, n_gf],
      .bind [n_mesh_slice],
      .use [n_np, n_norb],
      .bind [n_upper_triangle_slice],
      .use [n_np, n_norb],
      .bind [n_lower_triangle_slice],
      .use [n_upper_triangle_slice, n_lower_triangle_slice],
      .bind [n_combined_slice],
      .use [n_zip, n_combined_slice],
      .loop .any
        (block [
          .bind [n_upper_1, n_upper_2, n_lower_1, n_lower_2],
          .use [n_gf, n_mesh_slice, n_upper_1, n_upper_2],
          .bind [n_upper_triangle],
          .use [n_gf, n_mesh_slice, n_lower_1, n_lower_2],
          .bind [n_lower_triangle],
          .use [n_upper_triangle, n_lower_triangle]])
        (.skip)]

/-- symmetries.py:353-374 `_split_orbital_diagonal` -/
def f__split_orbital_diagonal : Fn where
  params := [n_gf]
  body :=
    block [
      .use [n_gf],
      .bind [n_target_shape],
      .use [n_len, n_target_shape],
      .bind [n_nparticle],
      .use [n_nparticle],
      .ite
        (block [
          .use [n_ValueError],
          .raise])
        (.skip),
      .use [n_target_shape],
      .bind [n_norb],
      .use [n_slice, n_gf],
      .bind [n_mesh_slice],
      .use [n_range, n_norb],
      .loop .any
        (block [
          .bind [n_orb],
          .use [n_gf, n_mesh_slice, n_orb, n_nparticle]])
        (.skip)]

/-- symmetries.py:376-404 `_check_orbital_symmetry` -/
def f__check_orbital_symmetry : Fn where
  params := [n_gf, n_atol]
  body :=
    block [
      .bind [n_signs],
      .use [n__split_orbital_triangle, n_gf],
      .loop .any
        (block [
          .bind [n_upper_triangle, n_lower_triangle],
          .use [n_np, n_upper_triangle, n_lower_triangle, n_atol],
          .ite
            (.use [n_signs])
            (block [
              .use [n_np, n_upper_triangle, n_lower_triangle, n_atol],
              .ite
                (.use [n_signs])
                (.ret)])])
        (.skip),
      .use [n__split_orbital_diagonal, n_gf],
      .loop .any
        (block [
          .bind [n_diagonal],
          .use [n_np, n_diagonal, n_atol],
          .ite
            (.use [n_signs])
            (.skip)])
        (.skip),
      .use [n__overall_sign, n_signs],
      .ret]

/-- symmetries.py:406-426 `_symmetrize_orbital` -/
def f__symmetrize_orbital : Fn where
  params := [n_gf, n_symmetry]
  body :=
    block [
      .use [n__split_orbital_triangle, n_gf],
      .loop .any
        (block [
          .bind [n_upper_triangle, n_lower_triangle],
          .use [n__average_halfs, n_upper_triangle, n_lower_triangle],
          .bind [n_avg],
          .use [n_avg, n_upper_triangle, n_symmetry],
          .ite
            (.use [n_avg, n_lower_triangle])
            (.use [n_avg, n_lower_triangle])])
        (.skip),
      .use [n_symmetry],
      .ite
        (block [
          .use [n__split_orbital_diagonal, n_gf],
          .loop .any
            (block [
              .bind [n_diagonal],
              .use [n_diagonal],
              .bind [n_diagonal]])
            (.skip)])
        (.skip)]

/-- symmetries.py, all code of the module -/
def mod : Mod where
  top :=
    block [
      .bind [n_np],
      .bind [n_enforce_symmetry],
      .bind [n_check_symmetry],
      .bind [n__average_halfs],
      .bind [n__overall_sign],
      .bind [n__split_frequency],
      .bind [n__check_frequency_symmetry],
      .bind [n__symmetrize_frequency],
      .bind [n__invert_momentum],
      .bind [n__split_momentum],
      .bind [n__check_momentum_symmetry],
      .bind [n__symmetrize_momentum],
      .bind [n__split_orbital_triangle],
      .bind [n__split_orbital_diagonal],
      .bind [n__check_orbital_symmetry],
      .bind [n__symmetrize_orbital]]
  fns := [f_enforce_symmetry, f_check_symmetry, f__average_halfs, f__overall_sign, f__split_frequency, f__check_frequency_symmetry,
    f__symmetrize_frequency, f__invert_momentum, f__split_momentum, f__check_momentum_symmetry, f__symmetrize_momentum,
    f__split_orbital_triangle, f__split_orbital_diagonal, f__check_orbital_symmetry, f__symmetrize_orbital]

end Verif.Names.Symmetries
