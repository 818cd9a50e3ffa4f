import Verif.FitDlr.Model
import Verif.Operators.Model
import Mathlib.Data.Complex.BigOperators
import Mathlib.Analysis.SpecialFunctions.Log.Basic
import Mathlib.LinearAlgebra.Matrix.Hermitian

/-!
# Model of `python/triqs_tprf/hf_solver.py`

The vectorisation of density matrices (arrays as functions of natural numbers), the mean field and
the energies (arrays over `Fin n`, momentum over a finite type), and the forward iteration for an
arbitrary density matrix step. The chemical potential search and the drivers with their state are in
`Solver.lean`; LAPACK diagonalisation is an input.
-/

noncomputable section

namespace Verif.HartreeFock

open Verif.Symmetries (triu)

/-! ## Vectorisation -/

/-- A two dimensional complex array. -/
abbrev Mat := ℕ → ℕ → ℂ

/-- A one dimensional real array with its length. -/
structure RVec where
  /-- `len(vec)` -/
  len : ℕ
  /-- `vec[m]` -/
  get : ℕ → ℝ

/-- `mat2vec` (hf_solver.py:464-482): concatenation of the real diagonal, real and imaginary part
of `mat[triu_idxs]`. -/
def mat2vec (norb : ℕ) (mat : Mat) : RVec :=
  let N := (triu norb).length
  let up := fun t => let u := (triu norb).getD t (0, 0); mat u.1 u.2
  { len := norb + N + N
    get := fun m => if m < norb then (mat m m).re
      else if m < norb + N then (up (m - norb)).re
      else (up (m - norb - N)).im }

/-- `vec2mat` (hf_solver.py:485-502). `np.split` refuses an odd length; the assignment to
`mat[triu_idxs]` refuses a wrong number of values (numpy would broadcast a single value, which
happens only for two orbitals, where it is the right number). -/
def vec2mat (norb : ℕ) (vec : RVec) : Except String Mat :=
  let rest := vec.len - norb
  if vec.len < norb then .error "operands could not be broadcast together"
  else if rest % 2 ≠ 0 then .error "array split does not result in an equal division"
  else if rest / 2 ≠ (triu norb).length then .error "shape mismatch"
  else
    let h := rest / 2
    let re := fun t => vec.get (norb + t)
    let im := fun t => vec.get (norb + h + t)
    -- mat[self.triu_idxs] = re + 1.j * im on zeros
    let m0 : Mat := fun a b => if (a, b) ∈ triu norb then
      (re ((triu norb).idxOf (a, b)) : ℂ) + Complex.I * im ((triu norb).idxOf (a, b)) else 0
    -- mat += np.conj(mat).T
    let m1 : Mat := fun a b => m0 a b + (starRingEnd ℂ) (m0 b a)
    -- mat += np.diag(diag)
    .ok fun a b => m1 a b + if a = b then (vec.get a : ℂ) else 0

/-- Hartree `mat2vec` (hf_solver.py:553-555) -/
def hartreeMat2vec (norb : ℕ) (mat : Mat) : RVec := ⟨norb, fun m => (mat m m).re⟩

/-- Hartree `vec2mat` (hf_solver.py:558-560) -/
def hartreeVec2mat (vec : RVec) : Mat := fun a b => if a = b then (vec.get a : ℂ) else 0

/-! ## Mean field and energies -/

variable {n : ℕ}

/-- `update_mean_field` (hf_solver.py:142-146): `einsum('abcd,cd->ba', -U, rho)`. -/
def meanField (U : Operators.T4 n) (rho : Matrix (Fin n) (Fin n) ℂ) : Matrix (Fin n) (Fin n) ℂ :=
  fun b a => ∑ c, ∑ d, -U a b c d * rho c d

/-- `update_mean_field_dispersion` (hf_solver.py:149-150) -/
def meanFieldDispersion {κ : Type*} (ek : κ → Matrix (Fin n) (Fin n) ℂ)
    (M : Matrix (Fin n) (Fin n) ℂ) : κ → Matrix (Fin n) (Fin n) ℂ := fun k => ek k + M

/-- Fermi function of hf_solver.py:178 -/
def fermi (beta e : ℝ) : ℝ := 1 / (Real.exp (beta * e) + 1)

/-- `update_momentum_density_matrix` (hf_solver.py:174-182):
`einsum('kab,kb,kcb->kac', V, fermi(e - mu), conj(V))`, given the eigensystem. -/
def momentumDensity {κ : Type*} (beta mu : ℝ) (e : κ → Fin n → ℝ)
    (V : κ → Matrix (Fin n) (Fin n) ℂ) : κ → Matrix (Fin n) (Fin n) ℂ :=
  fun k a c => ∑ b, V k a b * (fermi beta (e k b - mu) : ℂ) * (starRingEnd ℂ) (V k c b)

/-- `update_density_matrix` (hf_solver.py:185-191) -/
def density {κ : Type*} [Fintype κ] (rhok : κ → Matrix (Fin n) (Fin n) ℂ) :
    Matrix (Fin n) (Fin n) ℂ := fun a b => (∑ k, rhok k a b) / (Fintype.card κ : ℂ)

/-- `update_non_int_free_energy` (hf_solver.py:194-202), given the eigenvalues -/
def omega0 {κ : Type*} [Fintype κ] (beta mu : ℝ) (e : κ → Fin n → ℝ) : ℝ :=
  (-1 / beta * ∑ k, ∑ b, Real.log (1 + Real.exp (-beta * (e k b - mu)))) / (Fintype.card κ : ℝ)

/-- `update_kinetic_energy` (hf_solver.py:205-211) -/
def eKin {κ : Type*} [Fintype κ] (ek rhok : κ → Matrix (Fin n) (Fin n) ℂ) : ℂ :=
  (∑ k, ∑ a, ∑ b, ek k a b * rhok k b a) / (Fintype.card κ : ℂ)

/-- `update_interaction_energy` (hf_solver.py:214-219) -/
def eInt (U : Operators.T4 n) (rho : Matrix (Fin n) (Fin n) ℂ) : ℂ :=
  1 / 2 * ∑ a, ∑ b, ∑ c, ∑ d, rho a b * U a b c d * rho c d

/-- `update_total_energy` (hf_solver.py:222-231), first part: `E_tot`. -/
def eTot {κ : Type*} [Fintype κ] (U : Operators.T4 n) (ek rhok : κ → Matrix (Fin n) (Fin n) ℂ) :
    ℂ := eKin ek rhok + eInt U (density rhok)

/-- `update_total_energy` (hf_solver.py:222-231), second part: `Omega`. -/
def omega {κ : Type*} [Fintype κ] (U : Operators.T4 n) (beta mu : ℝ) (e : κ → Fin n → ℝ)
    (rhok : κ → Matrix (Fin n) (Fin n) ℂ) : ℂ :=
  (omega0 beta mu e : ℂ) + eInt U (density rhok)

/-- `expectation_value` (hf_solver.py:442-443) -/
def expectationValue (op rho : Matrix (Fin n) (Fin n) ℂ) : ℂ := ∑ a, ∑ b, op a b * rho b a

/-! ## Forward iteration -/

/-- Result of the loop: the recorded history, the last computed step (the state of the solver), and
whether the loop was left by `break`. -/
structure IterResult (E : Type*) where
  /-- `rho_iter` -/
  history : List E
  /-- last return value of `density_matrix_step` -/
  last : Option E
  /-- left by `break` -/
  converged : Bool

/-- `solve_iter` (hf_solver.py:320-340): `fuel` passes of the loop starting at `rho`, for a density
step `F` and a norm. In Python `drho = norm(old - new) / norm(old)` is `nan` or `inf` for a zero
`old`, for which the comparison is `False`. -/
def iterLoop {E : Type*} [AddCommGroup E] [Module ℝ E] (F : E → E) (nrm : E → ℝ) (mixing tol : ℝ) :
    ℕ → E → List E → Option E → IterResult E
  | 0, _, hist, last => ⟨hist, last, false⟩
  | fuel + 1, rho, hist, _ =>
    let hist' := hist ++ [rho]
    let new := F rho
    open Classical in
    if nrm rho ≠ 0 ∧ nrm (rho - new) / nrm rho < tol then ⟨hist', some new, true⟩
    else iterLoop F nrm mixing tol fuel ((1 - mixing) • rho + mixing • new) hist' (some new)

/-- `solve_iter` (hf_solver.py:275-346) from the initial density on, with its two assertions. -/
def solveIter {E : Type*} [AddCommGroup E] [Module ℝ E] (F : E → E) (nrm : E → ℝ) (rho0 : E)
    (nitermax : ℕ) (mixing tol : ℝ) : Except String (IterResult E) :=
  open Classical in
  if ¬ 0 ≤ mixing then .error "AssertionError"
  else if ¬ mixing ≤ 1 then .error "AssertionError"
  else .ok (iterLoop F nrm mixing tol nitermax rho0 [] none)

end Verif.HartreeFock
