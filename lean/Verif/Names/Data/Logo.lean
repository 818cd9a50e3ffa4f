import Verif.Names.Data.Ids

/-!
# `python/triqs_tprf/logo.py`

Written by `/verif/tools/names_extract.py`.
-/

set_option linter.style.nameCheck false

namespace Verif.Names.Logo

/-- logo.py:27-42 `tprf_banner` -/
def f_tprf_banner : Fn where
  params := []
  body :=
    block [
      .use [n_sys],
      .ite
        (.bind [n_banner])
        (.bind [n_banner]),
      .use [n_banner],
      .ret]

/-- logo.py, all code of the module -/
def mod : Mod where
  top :=
    block [
      .bind [n_sys],
      .bind [n_tprf_banner]]
  fns := [f_tprf_banner]

end Verif.Names.Logo
