import Verif.Eliashberg.Model
import Verif.Lindhard.Props
import Mathlib.MeasureTheory.Integral.IntervalIntegral.Basic

/-!
# Model of the routines for discrete Lehmann (DLR) meshes

`/repo/c++/triqs_tprf/lattice/fourier.hpp:36-92`, `/repo/c++/triqs_tprf/lattice/lattice_utility.cpp:32-55`,
`/repo/c++/triqs_tprf/lattice/gw.cpp:57-77` and `/repo/c++/triqs_tprf/lattice/eliashberg.cpp:72-133,180-190,207-224`.

A DLR mesh consists of as many poles `ω` as there are time nodes and frequency nodes.  `make_gf_dlr` (TRIQS, cppdlr)
solves for the coefficients that reproduce the values at the nodes; evaluation sums the kernel over the poles.  Both
statistics use the same kernel in imaginary time.  How cppdlr selects poles and nodes is not modelled: they are arbitrary,
and the theorems assume that the kernel matrices are invertible, which is what cppdlr constructs them for.
-/

noncomputable section

namespace Verif.Dlr

open Complex Matrix Verif.Parallel Verif.Fourier Verif.Lindhard Verif.Eliashberg Verif.Bubble

/-- poles and nodes of a DLR mesh of a given rank -/
structure Mesh (ι : Type) where
  /-- inverse temperature -/
  beta : ℝ
  /-- poles -/
  omega : ι → ℝ
  /-- imaginary times -/
  tau : ι → ℝ
  /-- Matsubara indices for each statistic -/
  nu : Stat → ι → ℤ

variable {ι : Type} [Fintype ι] [DecidableEq ι]

/-- the kernel at a Matsubara frequency, the transform of `freeTau` (see `kernelFreq_integral` in `Props.lean`) -/
def kernelFreq (s : Stat) (beta x : ℝ) (m : ℤ) : ℂ :=
  match s with
  | .fermion => 1 / (matsubara .fermion beta m - x)
  | .boson => if m = 0 ∧ x = 0 then -(beta / 2 : ℝ)
    else (1 - 2 * fermi (x * beta) : ℝ) / (matsubara .boson beta m - x)

namespace Mesh

variable (M : Mesh ι)

/-- kernel at the time nodes -/
def kTau : Matrix ι ι ℂ := Matrix.of fun j l => freeTau M.beta (M.tau j) (M.omega l)

/-- kernel at the frequency nodes -/
def kFreq (s : Stat) : Matrix ι ι ℂ := Matrix.of fun j l => kernelFreq s M.beta (M.omega l) (M.nu s j)

/-- `make_gf_dlr` from values at the time nodes -/
def fitTau (y : ι → ℂ) : ι → ℂ := M.kTau⁻¹ *ᵥ y

/-- `make_gf_dlr` from values at the frequency nodes -/
def fitFreq (s : Stat) (y : ι → ℂ) : ι → ℂ := (M.kFreq s)⁻¹ *ᵥ y

/-- the function of imaginary time that belongs to coefficients (`g_c(tau)`) -/
def evalTau (c : ι → ℂ) (t : ℝ) : ℂ := ∑ l, c l * freeTau M.beta t (M.omega l)

/-- the function of Matsubara frequency that belongs to coefficients (`g_c(iw)`) -/
def evalFreq (s : Stat) (c : ι → ℂ) (m : ℤ) : ℂ := ∑ l, c l * kernelFreq s M.beta (M.omega l) m

/-- `dlr_on_imtime`, `/repo/c++/triqs_tprf/lattice/lattice_utility.cpp:32-39,49-55`: evaluation at the points of any time
mesh -/
def onImtime (c : ι → ℂ) (times : List ℝ) : List ℂ := times.map fun t => M.evalTau c t

/-- `dlr_on_imfreq`, `/repo/c++/triqs_tprf/lattice/lattice_utility.cpp:32-47`: evaluation at the points of any Matsubara
mesh -/
def onImfreq (s : Stat) (c : ι → ℂ) (freqs : List ℤ) : List ℂ := freqs.map fun m => M.evalFreq s c m

/-- one lattice vector and matrix element of `fourier_Dwr_to_Dtr_general_target`,
`/repo/c++/triqs_tprf/lattice/fourier.hpp:53-60` -/
def toTau (s : Stat) (y : ι → ℂ) : ι → ℂ := fun j => M.evalTau (M.fitFreq s y) (M.tau j)

/-- one lattice vector and matrix element of `fourier_Dtr_to_Dwr_general_target`,
`/repo/c++/triqs_tprf/lattice/fourier.hpp:84-91` -/
def toFreq (s : Stat) (y : ι → ℂ) : ι → ℂ := fun j => M.evalFreq s (M.fitTau y) (M.nu s j)

variable {R T : Type*} [DecidableEq R]

/-- `fourier_Dwr_to_Dtr_general_target`, `/repo/c++/triqs_tprf/lattice/fourier.hpp:36-65`; `T` are the target indices,
functions have the order of arguments node, lattice vector, target -/
def wrToTr (s : Stat) (ranks : ℕ) (rmesh : List R) (g : ι → R → T → ℂ) : ι → R → T → ℂ :=
  let out : R → T → ι → ℂ := distributedAssign ranks rmesh fun r => fun x => M.toTau s fun j => g j r x
  fun j r x => out r x j

/-- `fourier_Dtr_to_Dwr_general_target`, `/repo/c++/triqs_tprf/lattice/fourier.hpp:67-96` -/
def trToWr (s : Stat) (ranks : ℕ) (rmesh : List R) (g : ι → R → T → ℂ) : ι → R → T → ℂ :=
  let out : R → T → ι → ℂ := distributedAssign ranks rmesh fun r => fun x => M.toFreq s fun j => g j r x
  fun j r x => out r x j

/-- `rho_k_from_g_wk` on a DLR mesh, `/repo/c++/triqs_tprf/lattice/gw.cpp:57-77`, one matrix element of the density of
DLR coefficients, `-G(β)` -/
def rhoPoint (y : ι → ℂ) : ℂ := -M.evalTau (M.fitFreq .fermion y) M.beta

/-- `rho_k_from_g_wk` on a DLR mesh, `/repo/c++/triqs_tprf/lattice/gw.cpp:57-77`, without the transposition that the
TRIQS function `density` applies -/
def rhoK (ranks : ℕ) (kmesh : List R) (g : ι → R → T → ℂ) : R → T → ℂ :=
  distributedAssign ranks kmesh fun k => fun x => M.rhoPoint fun j => g j k x

end Mesh

/-- convolution of antiperiodic functions of imaginary time, `∫_0^β f(τ - s) g(s) ds`; `convolve` of cppdlr returns its
values at the time nodes (`/repo/c++/triqs_tprf/lattice/eliashberg.cpp:115-117`) -/
def convolve (beta : ℝ) (f g : ℝ → ℂ) (t : ℝ) : ℂ :=
  (∫ s in (0 : ℝ)..t, f (t - s) * g s) - ∫ s in t..beta, f (t - s + beta) * g s

namespace Mesh

variable (M : Mesh ι) {d : ℕ} {n : Fin d → ℕ} [∀ i, NeZero (n i)] {o : Type} [Fintype o] [DecidableEq o]

/-- one term of `eliashberg_g_delta_g_product` for DLR meshes, `/repo/c++/triqs_tprf/lattice/eliashberg.cpp:104-121`:
coefficients of both factors, convolution at the time nodes, coefficients of the result, values at the frequency
nodes -/
def convTerm (gg delta : ι → ℂ) : ι → ℂ :=
  let ggc := M.fitFreq .fermion gg
  let dc := M.fitFreq .fermion delta
  let ft : ι → ℂ := fun j => convolve M.beta (M.evalTau ggc) (M.evalTau dc) (M.tau j)
  M.toFreq .fermion ft

/-- the loop body over momenta, `/repo/c++/triqs_tprf/lattice/eliashberg.cpp:98-126`; arguments: node, orbitals -/
def gdgPoint (g gm delta : ι → o → o → ℂ) : ι → o → o → ℂ := fun j d c =>
  ∑ e, ∑ f, M.convTerm (fun i => g i c f * (starRingEnd ℂ) (gm i e d)) (fun i => delta i e f) j

/-- `eliashberg_g_delta_g_product` for DLR meshes, `/repo/c++/triqs_tprf/lattice/eliashberg.cpp:76-132`, for a gap and a
Green's function on the same mesh -/
def gDeltaG (ranks : ℕ) (lat : List (Lat n)) (g delta : ι → Lat n → o → o → ℂ) : ι → Lat n → o → o → ℂ :=
  let out : Lat n → ι → o → o → ℂ := distributedAssign ranks lat fun k =>
    M.gdgPoint (fun j => g j k) (fun j => g j (-k)) (fun j => delta j k)
  fun j k => out k j

/-- `eliashberg_constant_gamma_f_product` for DLR meshes, `/repo/c++/triqs_tprf/lattice/eliashberg.cpp:207-224`:
`F_Dc(0)` is the value of the represented function at `τ = 0` -/
def constantGammaF (gamma : Lat n → T4 o) (F : ι → Lat n → o → o → ℂ) : Lat n → o → o → ℂ := fun r =>
  gammaF (gamma r) fun a b => M.evalTau (M.fitTau fun j => F j r a b) 0

/-- `eliashberg_dynamic_gamma_f_product` for DLR meshes of the same size,
`/repo/c++/triqs_tprf/lattice/eliashberg.cpp:225-264` -/
def dynamicGammaF (ranks : ℕ) (nodes : List ι) (lat : List (Lat n)) (gamma : ι → Lat n → T4 o)
    (F : ι → Lat n → o → o → ℂ) : ι × Lat n → o → o → ℂ :=
  distributedAssign ranks (nodes.product lat) fun p => gammaF (gamma p.1 p.2) (F p.1 p.2)

/-- the pair function in time and real space, `/repo/c++/triqs_tprf/lattice/eliashberg.cpp:271-273` -/
def fTr (ranks : ℕ) (lat : List (Lat n)) (F : ι → Lat n → o → o → ℂ) : ι → Lat n → o → o → ℂ :=
  fun j r a b => M.wrToTr .fermion ranks lat (fun j r (x : o × o) => kToR (fun k => F j k) r x.1 x.2) j r (a, b)

/-- `eliashberg_product_fft` for DLR meshes, `/repo/c++/triqs_tprf/lattice/eliashberg.cpp:267-293` -/
def productFFT (ranks : ℕ) (nodes : List ι) (lat : List (Lat n)) (gammaDyn : ι → Lat n → T4 o)
    (gammaConst : Lat n → T4 o) (g delta : ι → Lat n → o → o → ℂ) : ι → Lat n → o → o → ℂ :=
  let F := M.fTr ranks lat (M.gDeltaG ranks lat g delta)
  let dyn := dynamicGammaF ranks nodes lat gammaDyn F
  let const := M.constantGammaF gammaConst F
  fun j => rToK fun r a b =>
    M.trToWr .fermion ranks lat (fun i r (x : o × o) => dyn (i, r) x.1 x.2) j r (a, b) + const r a b

end Mesh

end Verif.Dlr
