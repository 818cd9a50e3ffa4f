import Verif.Names.Data.Ids

/-!
# `python/triqs_tprf/plot.py`

Written by `/verif/tools/names_extract.py`.
-/

set_option linter.style.nameCheck false

namespace Verif.Names.Plot

/-- plot.py:9-54 `plot_g2` -/
def f_plot_g2 : Fn where
  params := [n_G2, n_cplx, n_idx_labels, n_w, n_opt, n_title]
  body :=
    block [
      .use [n_G2, n_w],
      .bind [n_data],
      .use [n_cplx],
      .ite
        (block [
          .use [n_data],
          .bind [n_data]])
        (block [
          .use [n_cplx],
          .ite
            (block [
              .use [n_data],
              .bind [n_data]])
            (.skip)]),
      .use [n_data],
      .bind [n_n],
      .use [n_n],
      .bind [n_N],
      .use [n_N, n_N],
      .bind [n_subp],
      .bind [n_colorbar_flag],
      .bind [n_itertools],
      .use [n_itertools, n_range, n_n],
      .loop .any
        (block [
          .bind [n_idxs],
          .use [n_idxs],
          .bind [n_i1, n_i2, n_i3, n_i4],
          .use [n_data, n_i1, n_i2, n_i3, n_i4],
          .bind [n_d],
          .use [n_plt, n_subp],
          .bind [n_ax],
          .use [n_subp, n_idx_labels],
          .ite
            (block [
              .use [n_idxs],
              .ite
                (.use [n_idx_labels])
                (.skip),
              .bind [n_labels],
              .use [n_tuple, n_labels],
              .bind [n_sub_title]])
            (block [
              .use [n_str, n_idxs],
              .bind [n_sub_title]]),
          .use [n_plt, n_sub_title, n_np, n_np, n_d],
          .ite
            (block [
              .use [n_plt, n_d, n_opt, n_colorbar_flag],
              .ite
                (block [
                  .use [n_title],
                  .ite
                    (.use [n_plt, n_title])
                    (.skip),
                  .use [n_plt],
                  .bind [n_colorbar_flag]])
                (.skip)])
            (.skip),
          .use [n_ax, n_ax, n_plt]])
        (.skip),
      .use [n_plt]]

/-- plot.py:57-71 `get_g2_opt` -/
def f_get_g2_opt : Fn where
  params := [n_G2, n_cplx, n_cut]
  body :=
    block [
      .use [n_G2],
      .bind [n_data],
      .use [n_cplx],
      .ite
        (block [
          .use [n_data],
          .bind [n_data]])
        (block [
          .use [n_cplx],
          .ite
            (block [
              .use [n_data],
              .bind [n_data]])
            (.skip)]),
      .use [n_np, n_data, n_cut],
      .bind [n_vmin],
      .use [n_np, n_data, n_cut],
      .bind [n_vmax],
      .use [n_np, n_np, n_vmin, n_np, n_vmax],
      .bind [n_vm],
      .use [n_dict, n_vm, n_vm, n_plt],
      .bind [n_opt],
      .use [n_opt],
      .ret]

/-- plot.py, all code of the module -/
def mod : Mod where
  top :=
    block [
      .bind [n_itertools],
      .bind [n_np],
      .bind [n_Idx],
      .bind [n_oplot, n_oplotr, n_oploti, n_plt],
      .use [n_Idx],
      .bind [n_plot_g2],
      .bind [n_get_g2_opt]]
  fns := [f_plot_g2, f_get_g2_opt]

end Verif.Names.Plot
