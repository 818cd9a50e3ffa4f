import Verif.Names.Data.Ids

/-!
# `python/triqs_tprf/__init__.py`

Written by `/verif/tools/names_extract.py`.
-/

set_option linter.style.nameCheck false

namespace Verif.Names.Init

/-- __init__.py, all code of the module -/
def mod : Mod where
  top :=
    .skip
  fns := []

end Verif.Names.Init
