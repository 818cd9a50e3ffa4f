import Verif.Gw.Model
import Verif.Operators.Model

/-!
# Interaction tensor of the GW solver

Model of `get_gw_tensor`, `/repo/python/triqs_tprf/gw.py:94-108`.
-/

noncomputable section

namespace Verif.Gw

open Verif.Operators (Mono Err)

variable {ι : Type} [LinearOrder ι]

/-- `get_gw_tensor(H_int, fundamental_operators)`, `/repo/python/triqs_tprf/gw.py:94-108`: the quartic tensor (without
symmetrisation) transposed with `(0, 3, 1, 2)`, plus its transpose with `(2, 3, 0, 1)`. -/
def getGwTensor (fs : List ι) (ts : List (Mono ι × ℂ)) : Except Err (Operators.T4 fs.length) := do
  let U ← Operators.quarticTensorFromOperator fs false ts
  -- axis 0 of the result = axis 0 of the input, axis 1 = axis 3, axis 2 = axis 1, axis 3 = axis 2
  let R : Operators.T4 fs.length := fun a b c d => U a c d b
  return fun a b c d => R a b c d + R c d a b

end Verif.Gw
