import Verif.Parallel.Model
import Verif.Bubble.Model
import Mathlib.Analysis.SpecialFunctions.Trigonometric.DerivHyp
import Mathlib.Analysis.Complex.Trigonometric
import Mathlib.LinearAlgebra.Matrix.Hermitian

/-!
# Distribution functions, Lindhard bubble, non-interacting real time Green's functions

Model of `/repo/c++/triqs_tprf/lattice/lattice_utility.cpp:146-157`,
`/repo/c++/triqs_tprf/lattice/lindhard_chi00.cpp:33-111` and
`/repo/c++/triqs_tprf/lattice/chi_retime.cpp:40-90`.

`linalg::eigenelements` (LAPACK) is an arbitrary function `eig` returning eigenvalues and a matrix; what
theorems require of it is `EigSpec`.
-/

noncomputable section

namespace Verif.Lindhard

open Complex Verif.Parallel Verif.Fourier Verif.Bubble

/-- `fermi`, `/repo/c++/triqs_tprf/lattice/lattice_utility.cpp:146-153` (identical to `fermi_scalar`,
`/repo/c++/triqs_tprf/lattice/chi_retime.cpp:40-47`). -/
def fermi (e : ℝ) : ℝ :=
  if e < 0 then 1 / (Real.exp e + 1)
  else
    let expMe := Real.exp (-e)
    expMe / (1 + expMe)

/-- `bose`, `/repo/c++/triqs_tprf/lattice/lattice_utility.cpp:155-157`. -/
def bose (e : ℝ) : ℝ := 1 / (Real.exp e - 1)

variable {d : ℕ} {n : Fin d → ℕ} [∀ i, NeZero (n i)] {o : Type*} [Fintype o] [DecidableEq o]

/-- the interface of `linalg::eigenelements` -/
abbrev Eig (o : Type*) := Matrix o o ℂ → (o → ℝ) × Matrix o o ℂ

/-- What is expected of `linalg::eigenelements` on hermitian input: a unitary matrix whose columns are
eigenvectors. -/
def EigSpec (eig : Eig o) : Prop := ∀ m : Matrix o o ℂ, m.IsHermitian →
  (eig m).2.conjTranspose * (eig m).2 = 1 ∧ (eig m).2 * (eig m).2.conjTranspose = 1 ∧
  m = (eig m).2 * Matrix.diagonal (fun i => ((eig m).1 i : ℂ)) * (eig m).2.conjTranspose

/-- `total_factor`, `/repo/c++/triqs_tprf/lattice/lindhard_chi00.cpp:61-79`; `z = w + idelta`. -/
def totalFactor (tol beta : ℝ) (z : ℂ) (eki ekqj : ℝ) : ℂ :=
  let de := ekqj - eki
  let dn := fermi (eki * beta) - fermi (ekqj * beta)
  if ‖z‖ < tol ∧ |de| < tol then
    let coshBe := Real.cosh (0.5 * beta * eki)
    ((beta / (4 * coshBe * coshBe) : ℝ) : ℂ)
  else (dn : ℂ) / (z + de)

/-- the loop body for a pair `q`, `k`, `/repo/c++/triqs_tprf/lattice/lindhard_chi00.cpp:53-84`, at one
frequency -/
def lindhardTerm (eig : Eig o) (tol beta mu : ℝ) (e : Lat n → Matrix o o ℂ) (z : ℂ) (q k : Lat n) : T4 o :=
  fun a b c d =>
    let ek := (eig (e k - (mu : ℂ) • 1)).1
    let Uk := (eig (e k - (mu : ℂ) • 1)).2
    let ekq := (eig (e (k + q) - (mu : ℂ) • 1)).1
    let Ukq := (eig (e (k + q) - (mu : ℂ) • 1)).2
    ∑ i, ∑ j, Uk a i * Uk.conjTranspose i d * Ukq c j * Ukq.conjTranspose j b
      * totalFactor tol beta z (ek i) (ekq j)

/-- `lindhard_chi00_template`, `/repo/c++/triqs_tprf/lattice/lindhard_chi00.cpp:33-95`: the momenta `k` are
distributed over the ranks, all `q` are done on each rank; then `all_reduce` and division by the number of
momenta. -/
def lindhard (ranks : ℕ) (eig : Eig o) (tol beta mu : ℝ) (kmesh : List (Lat n)) (e : Lat n → Matrix o o ℂ)
    (z : ℂ) (q : Lat n) : T4 o :=
  (kmesh.length : ℂ)⁻¹ • distributedAccumulate ranks kmesh (fun k q => lindhardTerm eig tol beta mu e z q k) q

/-- one entry of `g0_Tk_les_gtr_from_e_k`, `/repo/c++/triqs_tprf/lattice/chi_retime.cpp:71-84`: `w` is the
weight function `+I occ` or `-I (1 - occ)` -/
def g0T (eig : Eig o) (beta : ℝ) (weight : ℝ → ℂ) (m : Matrix o o ℂ) (T : ℝ) (a b : o) : ℂ :=
  let ek := (eig m).1
  let Uk := (eig m).2
  ∑ c, Uk a c * (weight (fermi (beta * ek c)) * exp (-I * ek c * T)) * Uk.conjTranspose c b

/-- the lesser and greater functions of `g0_Tk_les_gtr_from_e_k`,
`/repo/c++/triqs_tprf/lattice/chi_retime.cpp:54-90`, momenta distributed over ranks. -/
def g0TkLes (ranks : ℕ) (eig : Eig o) (beta : ℝ) (kmesh : List (Lat n)) (e : Lat n → Matrix o o ℂ) :
    Lat n → ℝ → o → o → ℂ :=
  distributedAssign ranks kmesh fun k T => g0T eig beta (fun occ => I * occ) (e k) T

/-- see `g0TkLes` -/
def g0TkGtr (ranks : ℕ) (eig : Eig o) (beta : ℝ) (kmesh : List (Lat n)) (e : Lat n → Matrix o o ℂ) :
    Lat n → ℝ → o → o → ℂ :=
  distributedAssign ranks kmesh fun k T => g0T eig beta (fun occ => -I * (1 - occ)) (e k) T

end Verif.Lindhard
