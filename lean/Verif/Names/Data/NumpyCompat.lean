import Verif.Names.Data.Ids

/-!
# `python/triqs_tprf/numpy_compat.py`

Written by `/verif/tools/names_extract.py`.
-/

set_option linter.style.nameCheck false

namespace Verif.Names.NumpyCompat

/-- numpy_compat.py:19-20 `is_numpy_newer_than` -/
def f_is_numpy_newer_than : Fn where
  params := [n_version]
  body :=
    block [
      .use [n_parse, n_np, n_parse, n_version],
      .ret]

/-- numpy_compat.py:22-34 `np_linalg_func` -/
def f_np_linalg_func : Fn where
  params := [n_arr, n_func, n_version]
  body :=
    block [
      .use [n_is_numpy_newer_than, n_version],
      .ite
        (block [
          .use [n_func, n_arr],
          .bind [n_arr_out]])
        (block [
          .use [n_np, n_arr],
          .bind [n_arr_out],
          .use [n_arr],
          .ite
            (.use [n_range])
            (.skip),
          .bind [n_ranges],
          .use [n_itertools, n_ranges],
          .loop .any
            (block [
              .bind [n_idx],
              .use [n_func, n_arr, n_idx, n_arr_out, n_idx]])
            (.skip)]),
      .use [n_arr_out],
      .ret]

/-- numpy_compat.py:36-37 `np_inv` -/
def f_np_inv : Fn where
  params := [n_A]
  body :=
    block [
      .use [n_np_linalg_func, n_A, n_np],
      .ret]

/-- numpy_compat.py:39-54 `np_eigh` -/
def f_np_eigh : Fn where
  params := [n_A]
  body :=
    block [
      .use [n_is_numpy_newer_than],
      .ite
        (block [
          .use [n_np, n_A],
          .bind [n_E, n_U]])
        (block [
          .use [n_A],
          .bind [n_N, n_M, n_K],
          .use [n_M, n_K],
          .ite
            (.raise)
            (.skip),
          .use [n_np, n_N, n_M],
          .bind [n_E],
          .use [n_np, n_N, n_M, n_M, n_complex],
          .bind [n_U],
          .use [n_range, n_N],
          .loop .any
            (block [
              .bind [n_i],
              .use [n_np, n_A, n_i, n_E, n_i, n_U, n_i]])
            (.skip)]),
      .use [n_E, n_U],
      .ret]

/-- numpy_compat.py:56-68 `np_eigvalsh` -/
def f_np_eigvalsh : Fn where
  params := [n_arr]
  body :=
    block [
      .use [n_is_numpy_newer_than],
      .ite
        (block [
          .use [n_np, n_arr],
          .bind [n_arr_out]])
        (block [
          .use [n_np, n_np, n_arr],
          .bind [n_arr_out],
          .use [n_arr],
          .ite
            (.use [n_range])
            (.skip),
          .bind [n_ranges],
          .use [n_itertools, n_ranges],
          .loop .any
            (block [
              .bind [n_idx],
              .use [n_np, n_arr, n_idx, n_arr_out, n_idx]])
            (.skip)]),
      .use [n_arr_out],
      .ret]

/-- numpy_compat.py, all code of the module -/
def mod : Mod where
  top :=
    block [
      .bind [n_itertools],
      .bind [n_np],
      .bind [n_parse],
      .bind [n_is_numpy_newer_than],
      .bind [n_np_linalg_func],
      .bind [n_np_inv],
      .bind [n_np_eigh],
      .bind [n_np_eigvalsh]]
  fns := [f_is_numpy_newer_than, f_np_linalg_func, f_np_inv, f_np_eigh, f_np_eigvalsh]

end Verif.Names.NumpyCompat
