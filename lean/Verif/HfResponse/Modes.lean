import Verif.HfResponse.Model
import Mathlib.LinearAlgebra.Matrix.Charpoly.Basic
import Mathlib.Algebra.Polynomial.Roots

/-!
# Model of `HartreeFockResponse.mode_decomposition` (python/triqs_tprf/hf_response.py:213-224)
-/

noncomputable section

namespace Verif.HfResponse

variable {n : ℕ} {κ : Type*}

/-- What `np.linalg.eigvals` returns: all roots of the characteristic polynomial with multiplicity, in an
unspecified order. -/
def EigvalsSpec {I : Type*} [Fintype I] [DecidableEq I] (eigvals : Matrix I I ℂ → List ℂ) : Prop :=
  ∀ M, (eigvals M : Multiset ℂ) = M.charpoly.roots

/-- What `e[np.argsort(e.real)]` returns: the entries in the order of increasing real part; the order of
entries with equal real parts is not specified. -/
def ArgsortSpec (sorted : List ℂ → List ℂ) : Prop :=
  ∀ l, (sorted l).Perm l ∧ (sorted l).Pairwise fun x y => x.re ≤ y.re

/-- `1./x` in floating point numbers: division by zero gives `inf`, here `none`. -/
def recip (x : ℝ) : Option ℝ := if x = 0 then none else some (1 / x)

/-- `mode_decomposition` (hf_response.py:213-224) for the bare response tensor `chi0` and the interaction `U` -/
def modeDecomposition (eigvals : Matrix (Fin n × Fin n) (Fin n × Fin n) ℂ → List ℂ)
    (sorted : List ℂ → List ℂ) (U chi0 : Operators.T4 n) : List (Option ℝ) :=
  let e := eigvals (toMat chi0 * toMat U)
  let e := sorted e
  e.map fun x => recip (1 - x.re)

end Verif.HfResponse
