import Verif.Names.Data.OperatorUtils
import Verif.Names.Data.ParameterCollection
import Verif.Names.Data.Init
import Verif.Names.Data.AnalyticHubbardAtom
import Verif.Names.Data.AseTiming
import Verif.Names.Data.Bse
import Verif.Names.Data.Dbse
import Verif.Names.Data.Eliashberg
import Verif.Names.Data.Fitdlr
import Verif.Names.Data.Gw
import Verif.Names.Data.GwSolver
import Verif.Names.Data.HfResponse
import Verif.Names.Data.HfSolver
import Verif.Names.Data.LatticeUtils
import Verif.Names.Data.Logo
import Verif.Names.Data.MatrixRpa
import Verif.Names.Data.NumpyCompat
import Verif.Names.Data.Plot
import Verif.Names.Data.PlottingTools
import Verif.Names.Data.RpaTensor
import Verif.Names.Data.SuperLattice
import Verif.Names.Data.Symmetries
import Verif.Names.Data.TightBinding
import Verif.Names.Data.Utilities
import Verif.Names.Data.VaspCrpaParsers
import Verif.Names.Data.Wannier90

/-!
# All Python modules of the package
-/

namespace Verif.Names

/-- the modules of python/triqs_tprf (without the descriptions `*_desc.py` of the compiled modules) -/
def package : List Mod :=
  [OperatorUtils.mod, ParameterCollection.mod, Init.mod, AnalyticHubbardAtom.mod, AseTiming.mod, Bse.mod, Dbse.mod, Eliashberg.mod,
    Fitdlr.mod, Gw.mod, GwSolver.mod, HfResponse.mod, HfSolver.mod, LatticeUtils.mod, Logo.mod, MatrixRpa.mod, NumpyCompat.mod,
    Plot.mod, PlottingTools.mod, RpaTensor.mod, SuperLattice.mod, Symmetries.mod, TightBinding.mod, Utilities.mod,
    VaspCrpaParsers.mod, Wannier90.mod]

end Verif.Names
