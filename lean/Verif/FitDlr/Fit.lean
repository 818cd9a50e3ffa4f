import Verif.FitDlr.Model
import Verif.Operators.Model
import Mathlib.Analysis.SpecialFunctions.Exp
import Mathlib.Analysis.Complex.Norm

/-!
# Model of the constrained fit of `python/triqs_tprf/fitdlr.py`

The kernels of the two DLR libraries are written out, `w` are the dimensionless frequencies `omega * beta` of the
representation. The minimiser is left open: a fit is described by the vector of parameters it returns. Constraints are equations
between real vectors, met exactly.
-/

noncomputable section

namespace Verif.FitDlr

open Verif.Symmetries (triu tril)

/-! ### Drivers -/

/-- What the fit uses of a driver: `rho_x`, `dK_x`, `bound`, and the kernel behind `eval_dlr_tau` -/
structure Driver where
  /-- `rho_x` -/
  rho : ℕ → ℝ
  /-- `dK_x` -/
  dK : ℕ → ℝ
  /-- `bound` -/
  bound : ℝ
  /-- values of the basis functions in imaginary time -/
  kernel : ℕ → ℝ → ℝ

/-- basis functions of `MeshDLR`: `gc(tau)` -/
def triqsKernel (β : ℝ) (w : ℕ → ℝ) (x : ℕ) (τ : ℝ) : ℝ := -Real.exp (-(τ / β) * w x) / (1 + Real.exp (-w x))

/-- `triqs_driver.__init__` (fitdlr.py:106-124) -/
def triqsDriver (β : ℝ) (w : ℕ → ℝ) : Driver where
  rho x := -triqsKernel β w x β
  dK x := -(triqsKernel β w x 0 + triqsKernel β w x β) * w x / β
  bound := 1
  kernel := triqsKernel β w

/-- `pydlr.kernel.kernel(tau, omega)` -/
def pydlrKernel (t w : ℝ) : ℝ := Real.exp (-t * w) / (1 + Real.exp (-w))

/-- `pydlr_driver.__init__` (fitdlr.py:181-192) -/
def pydlrDriver (β : ℝ) (w : ℕ → ℝ) : Driver where
  rho x := -pydlrKernel 1 (w x)
  dK x := pydlrKernel 0 (w x) * (-w x / β) + pydlrKernel 1 (w x) * (-w x / β)
  bound := -1
  kernel x τ := pydlrKernel (τ / β) (w x)

/-- `eval_dlr_tau` (fitdlr.py:154-157, 198-200) -/
def Driver.eval (d : Driver) (nx : ℕ) (g : Arr) (τ : ℝ) (a b : ℕ) : ℂ := ∑ x ∈ Finset.range nx, d.kernel x τ * g x a b

/-! ### Constraints -/

/-- `LinearConstraint(A, bound, bound)`: the product of a row with the parameters -/
def dot (A x : RVec) : ℝ := ∑ m ∈ Finset.range x.len, A.get m * x.get m

/-- `A_xaa = zeros; A_xaa[:, i, j] = v` (fitdlr.py:315-316, 324-325, 332-333, 341) -/
def unitArr (i j : ℕ) (v : ℂ) : Arr := fun _ a b => if a = i ∧ b = j then v else 0

/-- The constraints of the jump (fitdlr.py:322-345), complex case: rows and bounds -/
def jumpConstraints (d : Driver) (nx no : ℕ) : List (RVec × ℝ) :=
  (List.range no).map (fun i => (Symmetrizer.fitXFromG nx no (unitArr i i 1), d.bound))
    ++ (triu no).flatMap fun u => [(Symmetrizer.fitXFromG nx no (unitArr u.1 u.2 1), 0),
        (Symmetrizer.fitXFromG nx no (unitArr u.1 u.2 Complex.I), 0)]

/-- The rows of the positivity option (fitdlr.py:312-320), asked to be at most zero -/
def positivityRows (nx no : ℕ) : List RVec := (List.range no).map fun i => Symmetrizer.fitXFromG nx no (unitArr i i 1)

/-- a four index array -/
abbrev Arr4 := ℕ → ℕ → ℕ → ℕ → ℂ

/-- `U_nX` (fitdlr.py:348-349): `U_ab_xcd = -swapaxes(U, 0, 1) * rho_x`, flattened -/
def uMat (d : Driver) (no : ℕ) (U : Arr4) (n m : ℕ) : ℂ :=
  let a := n / no
  let b := n % no
  let x := m / (no * no)
  let c := m % (no * no) / no
  let e := m % (no * no) % no
  (-U b a c e * d.rho x)

/-- `dK_nX` (fitdlr.py:350-351): `einsum('x,AB->AxB', dK_x, I)`, flattened -/
def dKMat (d : Driver) (no : ℕ) (n m : ℕ) : ℂ := d.dK (m / (no * no)) * if n = m % (no * no) then 1 else 0

/-- `g.flatten()` -/
def flat (no : ℕ) (g : Arr) (m : ℕ) : ℂ := g (m / (no * no)) (m % (no * no) / no) (m % (no * no) % no)

/-- `A_nX.dot(g.flatten()).reshape(no, no)` (fitdlr.py:352, 362) -/
def densityMat (d : Driver) (nx no : ℕ) (U : Arr4) (g : Arr) (a b : ℕ) : ℂ :=
  ∑ m ∈ Finset.range (nx * (no * no)), (dKMat d no (a * no + b) m - uMat d no U (a * no + b) m) * flat no g m

/-- `mat_vec` (fitdlr.py:354-358) -/
def matVec (no : ℕ) (mat : ℕ → ℕ → ℂ) : RVec :=
  splitReIm (Symmetrizer.getXD 1 no fun _ => mat) (Symmetrizer.getXU 1 no fun _ => mat)

/-- `density_constraint_function` (fitdlr.py:360-364) -/
def densityConstraint (d : Driver) (nx no : ℕ) (U : Arr4) (x : RVec) : Except String RVec := do
  let g ← Symmetrizer.fitGFromX nx no x
  return matVec no (densityMat d nx no U g)

/-- What the fit asks of its parameters (fitdlr.py:311-369) with the default symmetriser: the enabled constraints are met. -/
def Feasible (d : Driver) (nx no : ℕ) (h : ℕ → ℕ → ℂ) (U : Arr4)
    (positivity discontinuity density : Bool) (x : RVec) : Prop :=
  (positivity = true → ∀ A ∈ positivityRows nx no, dot A x ≤ 0) ∧
  (discontinuity = true → ∀ c ∈ jumpConstraints d nx no, dot c.1 x = c.2) ∧
  (density = true → ∃ v, densityConstraint d nx no U x = .ok v ∧ ∀ m < v.len, v.get m = (matVec no h).get m)

/-- `sol.norm` (fitdlr.py:392) -/
def norm (nx : ℕ) (g : Arr) (a b : ℕ) : ℂ := -∑ x ∈ Finset.range nx, g x a b

/-- `sol.norm_res` (fitdlr.py:393) -/
def normRes (d : Driver) (nx no : ℕ) (g : Arr) : NNReal :=
  (Finset.range no ×ˢ Finset.range no).sup fun u => ‖norm nx g u.1 u.2 + d.bound * (if u.1 = u.2 then 1 else 0)‖₊

/-- `sol.density_res` (fitdlr.py:396) -/
def densityRes (no : ℕ) (h : ℕ → ℕ → ℂ) (v : RVec) : NNReal :=
  (Finset.range v.len).sup fun m => ‖(matVec no h).get m - v.get m‖₊

end Verif.FitDlr
