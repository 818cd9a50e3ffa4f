import Verif.Names.Data.Ids

/-!
# `python/triqs_tprf/tight_binding.py`

Written by `/verif/tools/names_extract.py`.
-/

set_option linter.style.nameCheck false

namespace Verif.Names.TightBinding

/-- tight_binding.py:31-101 `create_square_lattice` -/
def f_create_square_lattice : Fn where
  params := [n_norb, n_t, n_tp, n_zeeman, n_spin, n_kwargs]
  body :=
    block [
      .use [n_zeeman],
      .ite
        (.use [n_spin])
        (.skip),
      .ite
        (block [
          .use [n_AttributeError],
          .raise])
        (.skip),
      .use [n_spin],
      .ifv n_spin
        (block [
          .use [n_norb],
          .bind [n_norb]])
        (.skip),
      .bind [n_np],
      .use [n_t, n_np, n_norb],
      .bind [n_t_matrix],
      .use [n_tp, n_np, n_norb],
      .bind [n_tp_matrix],
      .use [n_zeeman, n_np, n_range, n_norb],
      .bind [n_zeeman_matrix],
      .use [n_zeeman_matrix, n_t_matrix, n_t_matrix, n_t_matrix, n_t_matrix, n_tp_matrix, n_tp_matrix, n_tp_matrix, n_tp_matrix],
      .bind [n_hopping],
      .bind [n_units],
      .use [n_norb],
      .bind [n_orbital_positions],
      .use [n_TBLattice, n_units, n_hopping, n_orbital_positions],
      .bind [n_square_lattice],
      .use [n_square_lattice],
      .ret]

/-- tight_binding.py:104-124 `create_model_for_tests` -/
def f_create_model_for_tests : Fn where
  params := [n_norb, n_dim, n_t, n_t1, n_t2, n_t12, n_t21, n_kwargs]
  body :=
    block [
      .bind [n_full_units],
      .use [n_full_units, n_dim],
      .bind [n_units],
      .bind [n_np],
      .use [n_norb],
      .ite
        (block [
          .use [n_t, n_np, n_norb],
          .bind [n_t_matrix]])
        (block [
          .use [n_norb],
          .ite
            (block [
              .use [n_np, n_t1, n_t12, n_t21, n_t2],
              .bind [n_t_matrix]])
            (block [
              .use [n_NotImplementedError],
              .raise])]),
      .use [n_list, n_itertools, n_dim],
      .bind [n_all_nn_hoppings],
      .use [n_all_nn_hoppings],
      .ite
        (.use [n_sum, n_np])
        (.skip),
      .bind [n_non_diagonal_hoppings],
      .use [n_non_diagonal_hoppings],
      .ite
        (.use [n_t_matrix])
        (.skip),
      .bind [n_hoppings],
      .use [n_norb],
      .bind [n_orbital_positions],
      .use [n_TBLattice, n_units, n_hoppings, n_orbital_positions],
      .bind [n_model_for_tests],
      .use [n_model_for_tests],
      .ret]

/-- tight_binding.py, all code of the module -/
def mod : Mod where
  top :=
    block [
      .bind [n_itertools],
      .bind [n_TBLattice],
      .bind [n_create_square_lattice],
      .bind [n_create_model_for_tests],
      .bind [n___all__]]
  fns := [f_create_square_lattice, f_create_model_for_tests]

end Verif.Names.TightBinding
