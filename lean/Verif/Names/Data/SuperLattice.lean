import Verif.Names.Data.Ids

/-!
# `python/triqs_tprf/super_lattice.py`

Written by `/verif/tools/names_extract.py`.
-/

set_option linter.style.nameCheck false

namespace Verif.Names.SuperLattice

/-- super_lattice.py, all code of the module -/
def mod : Mod where
  top :=
    block [
      .bind [n_TBSuperLattice],
      .bind [n___all__]]
  fns := []

end Verif.Names.SuperLattice
