import Verif.Names.Data.Ids

/-!
# `python/triqs_tprf/wannier90.py`

Written by `/verif/tools/names_extract.py`.
-/

set_option linter.style.nameCheck false

namespace Verif.Names.Wannier90

/-- wannier90.py:31-33 `Units` (class body) -/
def f_Units : Fn where
  params := []
  isClass := true
  body :=
    block [
      .bind [n_Bohr],
      .bind [n_Angstrom]]

/-- wannier90.py:38-116 `parse_hopping_from_wannier90_hr_dat` -/
def f_parse_hopping_from_wannier90_hr_dat : Fn where
  params := [n_filename]
  body :=
    block [
      .use [n_open, n_filename],
      .bind [n_fd],
      .use [n_fd],
      .bind [n_lines],
      .use [n_lines, n_int, n_lines],
      .bind [n_num_wann],
      .use [n_int, n_lines],
      .bind [n_nrpts],
      .use [n_int, n_np, n_float, n_nrpts],
      .bind [n_nlines],
      .use [n_np],
      .bind [n_deg],
      .use [n_lines, n_nlines],
      .loop .any
        (block [
          .bind [n_line],
          .use [n_np, n_deg, n_np, n_StringIO, n_line, n_np],
          .bind [n_deg]])
        (.skip),
      .use [n_deg, n_nrpts],
      .ite
        (.raise)
        (.skip),
      .use [n_lines, n_nlines],
      .bind [n_hopp],
      .use [n_np, n_StringIO, n_hopp],
      .bind [n_hopp],
      .use [n_hopp, n_num_wann, n_nrpts],
      .ite
        (.raise)
        (.skip),
      .use [n_np, n_hopp, n_np],
      .bind [n_R],
      .use [n_np, n_hopp, n_np],
      .bind [n_nm],
      .use [n_hopp],
      .bind [n_t_re],
      .use [n_hopp],
      .bind [n_t_im],
      .use [n_t_re, n_t_im],
      .bind [n_t],
      .use [n_OrderedDict],
      .bind [n_r_dict],
      .bind [n_hopp_dict],
      .use [n_range, n_R],
      .loop .any
        (block [
          .bind [n_idx],
          .use [n_tuple, n_R, n_idx],
          .bind [n_r],
          .use [n_r, n_r_dict],
          .ite
            (.use [n_r_dict, n_r])
            (.use [n_r_dict, n_r]),
          .use [n_r, n_hopp_dict],
          .ite
            (.use [n_np, n_num_wann, n_num_wann, n_complex, n_hopp_dict, n_r])
            (.skip),
          .use [n_nm, n_idx],
          .bind [n_n, n_m],
          .use [n_t, n_idx, n_hopp_dict, n_r, n_n, n_m]])
        (.skip),
      .use [n_zip, n_list, n_r_dict, n_deg],
      .loop .any
        (block [
          .bind [n_r, n_weight],
          .use [n_hopp_dict, n_r, n_weight]])
        (.skip),
      .use [n_hopp_dict, n_num_wann],
      .ret]

/-- wannier90.py:119-167 `parse_lattice_vectors_from_wannier90_wout` -/
def f_parse_lattice_vectors_from_wannier90_wout : Fn where
  params := [n_filename]
  body :=
    block [
      .use [n_open, n_filename],
      .bind [n_fd],
      .use [n_fd],
      .bind [n_lines],
      .use [n_enumerate, n_lines],
      .loop .any
        (block [
          .bind [n_idx, n_line],
          .use [n_line],
          .ite
            (block [
              .use [n_line],
              .ite
                (block [
                  .use [n_units],
                  .bind [n_unit]])
                (block [
                  .use [n_line],
                  .ite
                    (block [
                      .use [n_units],
                      .bind [n_unit]])
                    (block [
                      .use [n_NotImplementedError],
                      .raise])]),
              .brk])
            (.skip)])
        (.skip),
      .use [n_line],
      .ite
        (block [
          .use [n_IOError],
          .raise])
        (.skip),
      .use [n_lines, n_idx, n_idx],
      .bind [n_lines],
      .use [n_np, n_StringIO, n_lines],
      .bind [n_array],
      .use [n_array, n_unit],
      .bind [n_array],
      .bind [n_vectors],
      .use [n_range, n_array],
      .loop .any
        (block [
          .bind [n_idx],
          .use [n_tuple, n_array, n_idx],
          .bind [n_v],
          .use [n_vectors, n_v]])
        (.skip),
      .use [n_vectors],
      .ret]

/-- wannier90.py:170-207 `parse_reciprocal_lattice_vectors_from_wannier90_wout` -/
def f_parse_reciprocal_lattice_vectors_from_wannier90_wout : Fn where
  params := [n_filename]
  body :=
    block [
      .use [n_open, n_filename],
      .bind [n_fd],
      .use [n_fd],
      .bind [n_lines],
      .use [n_enumerate, n_lines],
      .loop .any
        (block [
          .bind [n_idx, n_line],
          .use [n_line],
          .ite
            (.brk)
            (.skip)])
        (.skip),
      .use [n_lines, n_idx, n_idx],
      .bind [n_lines],
      .use [n_np, n_StringIO, n_lines],
      .bind [n_array],
      .bind [n_vectors],
      .use [n_range, n_array],
      .loop .any
        (block [
          .bind [n_idx],
          .use [n_tuple, n_array, n_idx],
          .bind [n_v],
          .use [n_vectors, n_v]])
        (.skip),
      .use [n_vectors],
      .ret]

/-- wannier90.py:210-258 `parse_orbital_positions_from_wannier90_wout` -/
def f_parse_orbital_positions_from_wannier90_wout : Fn where
  params := [n_filename, n_units]
  body :=
    block [
      .use [n_open, n_filename],
      .bind [n_fd],
      .use [n_fd],
      .bind [n_lines],
      .bind [n_idxstart],
      .use [n_enumerate, n_lines],
      .loop .any
        (block [
          .bind [n_idx, n_line],
          .use [n_line],
          .ite
            (.use [n_idxstart])
            (.skip),
          .ite
            (block [
              .use [n_idx],
              .bind [n_idxstart]])
            (.skip),
          .use [n_line],
          .ite
            (.use [n_idxstart])
            (.skip),
          .ite
            (block [
              .use [n_idx],
              .bind [n_idxend],
              .brk])
            (.skip)])
        (.skip),
      .use [n_idxend, n_idxstart],
      .bind [n_norb],
      .use [n_lines, n_idxstart, n_idxend],
      .bind [n_lines],
      .use [n_np, n_StringIO, n_lines],
      .bind [n_array],
      .use [n_np, n_array, n_np],
      .bind [n_array],
      .use [n_np, n_np, n_units, n_array],
      .bind [n_array],
      .bind [n_vectors],
      .use [n_range, n_array],
      .loop .any
        (block [
          .bind [n_idx],
          .use [n_tuple, n_array, n_idx],
          .bind [n_v],
          .use [n_vectors, n_v]])
        (.skip),
      .use [n_vectors],
      .ret]

/-- wannier90.py:261-299 `parse_band_structure_from_wannier90_band_dat` -/
def f_parse_band_structure_from_wannier90_band_dat : Fn where
  params := [n_filename]
  body :=
    block [
      .use [n_open, n_filename],
      .bind [n_fd],
      .use [n_fd],
      .bind [n_lines],
      .bind [n_num_wann],
      .use [n_lines],
      .loop .any
        (block [
          .bind [n_line],
          .use [n_line],
          .ite
            (block [
              .use [n_num_wann],
              .bind [n_num_wann]])
            (.skip)])
        (.skip),
      .use [n_lines],
      .bind [n_lines],
      .use [n_np, n_StringIO, n_lines],
      .bind [n_data],
      .use [n_data],
      .bind [n_n_pts],
      .use [n_data, n_num_wann, n_n_pts, n_num_wann],
      .bind [n_data],
      .use [n_data, n_data],
      .bind [n_w, n_E],
      .use [n_E, n_w],
      .ret]

/-- wannier90.py, all code of the module; the functions f_parse_lattice_vectors_from_wannier90_wout, f_parse_reciprocal_lattice_vectors_from_wannier90_wout, f_parse_orbital_positions_from_wannier90_wout are treated separately -/
def mod : Mod where
  top :=
    block [
      .bind [n_np],
      .bind [n_StringIO],
      .bind [n_OrderedDict],
      .use [n_object],
      .bind [n_Units],
      .use [n_Units],
      .bind [n_units],
      .bind [n_parse_hopping_from_wannier90_hr_dat],
      .bind [n_parse_lattice_vectors_from_wannier90_wout],
      .bind [n_parse_reciprocal_lattice_vectors_from_wannier90_wout],
      .bind [n_parse_orbital_positions_from_wannier90_wout],
      .bind [n_parse_band_structure_from_wannier90_band_dat]]
  fns := [f_Units, f_parse_hopping_from_wannier90_hr_dat, f_parse_band_structure_from_wannier90_band_dat]

end Verif.Names.Wannier90
