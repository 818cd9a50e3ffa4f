import Verif.Names.Data.Ids

/-!
# `python/triqs_tprf/plotting_tools.py`

Written by `/verif/tools/names_extract.py`.
-/

set_option linter.style.nameCheck false

namespace Verif.Names.PlottingTools

/-- plotting_tools.py:39-43 `bsplot` -/
def f_bsplot : Fn where
  params := [n_obj, n_path, n_opt_list, n_opt_dict]
  body :=
    .use [n___bsplot_impl, n_plt, n_obj, n_path, n_opt_list, n_opt_dict]

/-- plotting_tools.py:45-73 `__bsplot_impl` -/
def f___bsplot_impl : Fn where
  params := [n_top, n_obj, n_path, n_opt_list, n_opt_dict]
  body :=
    block [
      .use [n_list, n_zip, n_path],
      .bind [n_hs_labels, n_hs_k],
      .use [n_list, n_zip, n_hs_k, n_hs_k],
      .bind [n_k_paths],
      .use [n_k_space_path, n_k_paths, n_obj],
      .bind [n_k_vecs, n_k_plot, n_K_plot],
      .use [n_k_vecs],
      .bind [n_kx, n_ky, n_kz],
      .use [n_isinstance, n_top, n_types],
      .ite
        (block [
          .use [n_top],
          .bind [n_top]])
        (.skip),
      .use [n_np],
      .clo [n_obj],
      .bind [n_get_gf_on_path],
      .use [n_get_gf_on_path, n_kx, n_ky, n_kz],
      .bind [n_gf_on_path],
      .use [n_top, n_k_plot, n_gf_on_path, n_opt_list, n_opt_dict, n_top, n_K_plot, n_top, n_hs_labels, n_top, n_top, n_top, n_np, n_top],
      .bind [n_lower_limit],
      .use [n_np, n_top],
      .bind [n_upper_limit],
      .use [n_top, n_lower_limit, n_upper_limit, n_top, n_lower_limit, n_upper_limit]]

/-- plotting_tools.py:80-84 `dosplot` -/
def f_dosplot : Fn where
  params := [n_obj, n_opt_list, n_opt_dict]
  body :=
    .use [n___dosplot_impl, n_plt, n_obj, n_opt_list, n_opt_dict]

/-- plotting_tools.py:86-112 `__dosplot_impl` -/
def f___dosplot_impl : Fn where
  params := [n_top, n_obj, n_opt_list, n_opt_dict]
  body :=
    block [
      .use [n_np, n_obj],
      .bind [n_lower_limit],
      .use [n_np, n_obj],
      .bind [n_upper_limit],
      .use [n_gaussian_kde, n_obj],
      .bind [n_dos],
      .use [n_np, n_lower_limit, n_upper_limit],
      .bind [n_xs],
      .use [n_dos, n_dos, n_isinstance, n_top, n_types],
      .ite
        (block [
          .use [n_top],
          .bind [n_top]])
        (.skip),
      .use [n_top, n_dos, n_xs, n_xs, n_opt_list, n_opt_dict, n_top, n_xs, n_dos, n_xs, n_len, n_xs, n_opt_list, n_opt_dict, n_np, n_top],
      .bind [n_lower_limit],
      .use [n_np, n_top],
      .bind [n_upper_limit],
      .use [n_top, n_lower_limit, n_upper_limit, n_top, n_lower_limit, n_upper_limit, n_top]]

/-- plotting_tools.py, all code of the module -/
def mod : Mod where
  top :=
    block [
      .bind [n_itertools],
      .bind [n_types],
      .bind [n_np],
      .bind [n_mpl],
      .bind [n_plt],
      .bind [n_k_space_path],
      .bind [n_gaussian_kde],
      .bind [n_bsplot],
      .bind [n___bsplot_impl],
      .clo [n___bsplot_impl],
      .use [n_mpl],
      .bind [n_dosplot],
      .bind [n___dosplot_impl],
      .clo [n___dosplot_impl],
      .use [n_mpl]]
  fns := [f_bsplot, f___bsplot_impl, f_dosplot, f___dosplot_impl]

end Verif.Names.PlottingTools
