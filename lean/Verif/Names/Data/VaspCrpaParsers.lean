import Verif.Names.Data.Ids

/-!
# `python/triqs_tprf/vasp_crpa_parsers.py`

Written by `/verif/tools/names_extract.py`.
-/

set_option linter.style.nameCheck false

namespace Verif.Names.VaspCrpaParsers

/-- vasp_crpa_parsers.py:11-70 `read_vasp_crpa_vq_to_ndarray` -/
def f_read_vasp_crpa_vq_to_ndarray : Fn where
  params := [n_path, n_prefix, n_verbose, n_orbsub]
  body :=
    block [
      .use [n_glob, n_path, n_prefix],
      .bind [n_filenames],
      .use [n_np, n_filenames],
      .bind [n_filenames],
      .use [n_np],
      .bind [n_data],
      .use [n_filenames],
      .loop .any
        (block [
          .bind [n_filename],
          .use [n_verbose],
          .ifv n_verbose
            (.use [n_print, n_filename])
            (.skip),
          .use [n_warnings, n_warnings, n_np, n_filename],
          .bind [n_d],
          .use [n_len, n_d],
          .ite
            (block [
              .use [n_np, n_data, n_d],
              .bind [n_data]])
            (.skip)])
        (.skip),
      .use [n_data],
      .bind [n_q],
      .use [n_np, n_data, n_np],
      .bind [n_idxs],
      .use [n_data, n_data],
      .bind [n_vals],
      .use [n_idxs],
      .bind [n_norb],
      .use [n_len, n_orbsub],
      .bind [n_norbsub],
      .use [n_int, n_q, n_norb],
      .bind [n_nq],
      .use [n_verbose],
      .ifv n_verbose
        (block [
          .use [n_print, n_norb, n_nq, n_norbsub],
          .ite
            (.use [n_print, n_orbsub])
            (.skip)])
        (.skip),
      .use [n_np, n_nq, n_np],
      .bind [n_Q],
      .use [n_norbsub],
      .ite
        (block [
          .use [n_norb],
          .bind [n_norbsub],
          .use [n_range, n_norb],
          .bind [n_orbsub]])
        (.skip),
      .use [n_np, n_nq, n_norbsub, n_norbsub, n_norbsub, n_norbsub, n_np],
      .bind [n_U_Q],
      .use [n_range, n_nq],
      .loop .any
        (block [
          .bind [n_qidx],
          .use [n_np, n_norb, n_np],
          .bind [n_u],
          .use [n_qidx, n_norb, n_qidx, n_norb],
          .bind [n_s, n_e],
          .use [n_np, n_q, n_s, n_e, n_q, n_s, n_np, n_q, n_s, n_e, n_idxs, n_s, n_e, n_vals, n_s, n_e],
          .bind [n_ijkl, n_v],
          .use [n_range, n_norb],
          .loop .any
            (block [
              .bind [n_n],
              .use [n_v, n_n, n_u, n_tuple, n_ijkl, n_n]])
            (.skip),
          .use [n_itertools, n_range, n_norbsub],
          .loop .any
            (block [
              .bind [n_a, n_b, n_c, n_d],
              .use [n_u, n_orbsub, n_b, n_orbsub, n_a, n_orbsub, n_d, n_orbsub, n_c, n_U_Q, n_qidx, n_a, n_b, n_c, n_d]])
            (.skip),
          .use [n_q, n_s, n_Q, n_qidx, n_verbose],
          .ifv n_verbose
            (.use [n_print, n_Q, n_qidx, n_Q, n_qidx, n_Q, n_qidx, n_np, n_u, n_np, n_u])
            (.skip)])
        (.skip),
      .use [n_np, n_Q],
      .bind [n_Q, n_uidx],
      .use [n_U_Q, n_uidx],
      .bind [n_U_Q],
      .use [n_U_Q, n_Q],
      .ret]

/-- vasp_crpa_parsers.py:72-117 `convert_from_ndarray_to_triqs` -/
def f_convert_from_ndarray_to_triqs : Fn where
  params := [n_U_Q, n_Q, n_units, n_orbital_positions, n_kpts]
  body :=
    block [
      .bind [n_Gf, n_MeshBrZone],
      .bind [n_BrillouinZone],
      .bind [n_BravaisLattice],
      .bind [n_TBLattice],
      .bind [n_get_relative_k_from_absolute],
      .use [n_BravaisLattice, n_units, n_orbital_positions],
      .bind [n_bl],
      .use [n_BrillouinZone, n_bl],
      .bind [n_bz],
      .use [n_MeshBrZone, n_bz, n_np, n_np, n_kpts, n_np],
      .bind [n_bzmesh],
      .use [n_Gf, n_bzmesh, n_U_Q],
      .bind [n_u_q],
      .use [n_TBLattice, n_units, n_orbital_positions],
      .bind [n_H],
      .use [n_H],
      .bind [n_kunits],
      .use [n_np, n_np, n_Q, n_kpts, n_np],
      .bind [n_tmp],
      .use [n_range, n_Q],
      .ite
        (.use [n_tuple, n_tmp])
        (.skip),
      .bind [n_I],
      .use [n_enumerate, n_I],
      .loop .any
        (block [
          .bind [n_qidx, n_i],
          .use [n_np, n_i],
          .bind [n_i],
          .use [n_i],
          .ite
            (.use [n_i, n_kpts])
            (.skip),
          .use [n_i],
          .ite
            (.use [n_i, n_kpts])
            (.skip),
          .use [n_i],
          .ite
            (.use [n_i, n_kpts])
            (.skip),
          .use [n_tuple, n_i],
          .bind [n_i],
          .use [n_bzmesh],
          .loop .any
            (block [
              .bind [n_k],
              .use [n_get_relative_k_from_absolute, n_k, n_kunits],
              .bind [n_q],
              .use [n_tuple, n_np, n_np, n_kpts, n_q, n_np],
              .bind [n_j],
              .use [n_i, n_j],
              .ite
                (.use [n_U_Q, n_qidx, n_u_q, n_k])
                (.skip)])
            (.skip)])
        (.skip),
      .use [n_u_q],
      .ret]

/-- vasp_crpa_parsers.py:119-129 `read_vasp_crpa_vq_to_triqs` -/
def f_read_vasp_crpa_vq_to_triqs : Fn where
  params := [n_path, n_units, n_orbital_positions, n_kpts, n_verbose, n_orbsub]
  body :=
    block [
      .use [n_read_vasp_crpa_vq_to_ndarray, n_path, n_verbose, n_orbsub],
      .bind [n_UR_Q, n_Q],
      .use [n_read_vasp_crpa_vq_to_ndarray, n_path, n_verbose, n_orbsub],
      .bind [n_VR_Q, n_Q],
      .use [n_read_vasp_crpa_vq_to_ndarray, n_path, n_verbose, n_orbsub],
      .bind [n_VRR_Q, n_Q],
      .use [n_UR_Q, n_VR_Q, n_VRR_Q],
      .bind [n_U_Q],
      .use [n_convert_from_ndarray_to_triqs, n_VR_Q, n_Q, n_units, n_orbital_positions, n_kpts],
      .bind [n_v_q],
      .use [n_convert_from_ndarray_to_triqs, n_U_Q, n_Q, n_units, n_orbital_positions, n_kpts],
      .bind [n_u_q],
      .use [n_v_q, n_u_q],
      .ret]

/-- vasp_crpa_parsers.py, all code of the module -/
def mod : Mod where
  top :=
    block [
      .bind [n_glob],
      .bind [n_warnings],
      .bind [n_itertools],
      .bind [n_np],
      .bind [n_read_vasp_crpa_vq_to_ndarray],
      .bind [n_convert_from_ndarray_to_triqs],
      .bind [n_read_vasp_crpa_vq_to_triqs]]
  fns := [f_read_vasp_crpa_vq_to_ndarray, f_convert_from_ndarray_to_triqs, f_read_vasp_crpa_vq_to_triqs]

end Verif.Names.VaspCrpaParsers
