import Mathlib.Analysis.SpecialFunctions.Complex.CircleAddChar
import Mathlib.Algebra.BigOperators.Pi
import Verif.Parallel.Model

/-!
# Lattice and Matsubara Fourier transforms

Model of `/repo/c++/triqs_tprf/fourier/fourier_lattice.cpp`, `/repo/c++/triqs_tprf/fourier/fourier_matsubara.cpp`,
`/repo/c++/triqs_tprf/fourier/fourier_common.cpp`, `/repo/c++/triqs_tprf/lattice/fourier.hpp` and
`/repo/c++/triqs_tprf/lattice/fourier_interpolation.cpp`.

FFTW itself is an external library; `fftw` below is its documented result (the unnormalised discrete
Fourier transform).  A mesh with `dims = (n_1, ..., n_d)` is the product of the cyclic groups `ZMod n_i`.
Arrays of complex numbers are zero initialised by nda.
-/

noncomputable section

namespace Verif.Fourier

open Complex Verif.Parallel

/-! ## Lattice transforms -/

/-- points of a cyclic lattice / of a Brillouin zone mesh with dimensions `n` -/
abbrev Lat {d : ℕ} (n : Fin d → ℕ) := ∀ i, ZMod (n i)

variable {d : ℕ} {n : Fin d → ℕ} [∀ i, NeZero (n i)]
variable {E : Type*} [AddCommGroup E] [Module ℂ E]

/-- FFTW multi-dimensional transform; `sign = -1` is `FFTW_FORWARD`, `sign = 1` is `FFTW_BACKWARD`;
called in `/repo/c++/triqs_tprf/fourier/fourier_common.cpp:26-55`. -/
def fftw (sign : ℤ) (g : Lat n → E) : Lat n → E := fun y =>
  ∑ x, exp (sign * (2 * Real.pi * I * ∑ i, ((x i).val * (y i).val : ℂ) / n i)) • g x

/-- Brillouin zone → lattice, `/repo/c++/triqs_tprf/fourier/fourier_lattice.cpp:39,44-51`. -/
def kToR (gk : Lat n → E) : Lat n → E := fun r => (Fintype.card (Lat n) : ℂ)⁻¹ • fftw (-1) gk r

/-- lattice → Brillouin zone, `/repo/c++/triqs_tprf/fourier/fourier_lattice.cpp:40,55-59`. -/
def rToK (gr : Lat n → E) : Lat n → E := fftw 1 gr

/-- `fourier_wk_to_wr_general_target`, `/repo/c++/triqs_tprf/lattice/fourier.hpp:165-196`: one transform per
frequency, frequencies distributed over the ranks. -/
def fourierWkToWr {W : Type*} [DecidableEq W] (ranks : ℕ) (wmesh : List W) (g : W → Lat n → E) :
    W → Lat n → E := distributedAssign ranks wmesh fun w => kToR (g w)

/-- `fourier_wr_to_wk_general_target`, `/repo/c++/triqs_tprf/lattice/fourier.hpp:199-230`. -/
def fourierWrToWk {W : Type*} [DecidableEq W] (ranks : ℕ) (wmesh : List W) (g : W → Lat n → E) :
    W → Lat n → E := distributedAssign ranks wmesh fun w => rToK (g w)

/-- `cluster_mesh_fourier_interpolation` at one momentum and one frequency,
`/repo/c++/triqs_tprf/lattice/fourier_interpolation.cpp:29-68`.  `k` are the components of the momentum along
the reciprocal basis dual to the lattice basis (so that `k · r = ∑ k_i r_i`), `r_i` the integer
coordinates `0 ≤ r_i < n_i` of the mesh points. -/
def interpolate (gr : Lat n → E) (k : Fin d → ℝ) : E :=
  ∑ r : Lat n, exp (-(I * ∑ i, (k i : ℂ) * (r i).val)) • gr r

/-- the momentum of a mesh point -/
def meshMomentum (q : Lat n) : Fin d → ℝ := fun i => 2 * Real.pi * (q i).val / n i

/-! ## Matsubara transforms -/

/-- statistics -/
inductive Stat where
  | fermion
  | boson
  deriving DecidableEq

/-- Matsubara frequency `iω_m` (`triqs/mesh/imfreq.hpp`). -/
def matsubara (s : Stat) (beta : ℝ) (m : ℤ) : ℂ :=
  match s with
  | .fermion => I * ((2 * m + 1) * Real.pi / beta)
  | .boson => I * (2 * m * Real.pi / beta)

/-- `oneFermion`, `/repo/c++/triqs_tprf/fourier/fourier_matsubara.cpp:31-33`. -/
def oneFermion (a : ℂ) (b tau beta : ℝ) : ℂ :=
  -a * (if 0 ≤ b then Real.exp (-b * tau) / (1 + Real.exp (-beta * b))
    else Real.exp (b * (beta - tau)) / (1 + Real.exp (beta * b)) : ℝ)

/-- `oneBoson`, `/repo/c++/triqs_tprf/fourier/fourier_matsubara.cpp:35-37`. -/
def oneBoson (a : ℂ) (b tau beta : ℝ) : ℂ :=
  a * (if 0 ≤ b then Real.exp (-b * tau) / (Real.exp (-beta * b) - 1)
    else Real.exp (b * (beta - tau)) / (1 - Real.exp (b * beta)) : ℝ)

/-- the three poles, `/repo/c++/triqs_tprf/fourier/fourier_matsubara.cpp:152-154,164-166,275-277,282-284`. -/
def poleB : Stat → Fin 3 → ℝ
  | .fermion => ![0, 1, -1]
  | .boson => ![-(1 / 2), -1, 1]

/-- the three residues, `/repo/c++/triqs_tprf/fourier/fourier_matsubara.cpp:155-157,167-169,278-280,285-287`. -/
def poleA : Stat → ℂ → ℂ → ℂ → Fin 3 → ℂ
  | .fermion, m1, m2, m3 => ![m1 - m3, (m2 + m3) / 2, (m3 - m2) / 2]
  | .boson, m1, m2, m3 => ![4 * (m1 - m3) / 3, m3 - (m1 + m2) / 2, m1 / 6 + m2 / 2 + m3 / 3]

/-- `a1 / (w - b1) + a2 / (w - b2) + a3 / (w - b3)`. -/
def tailW (s : Stat) (m1 m2 m3 w : ℂ) : ℂ := ∑ j, poleA s m1 m2 m3 j / (w - poleB s j)

/-- the same poles in imaginary time -/
def tailT (s : Stat) (m1 m2 m3 : ℂ) (beta tau : ℝ) : ℂ :=
  match s with
  | .fermion => ∑ j, oneFermion (poleA s m1 m2 m3 j) (poleB s j) tau beta
  | .boson => ∑ j, oneBoson (poleA s m1 m2 m3 j) (poleB s j) tau beta

/-- one dimensional FFTW transform of the first `L` entries -/
def fftw1 (sign : ℤ) (L : ℕ) (x : ℕ → ℂ) (j : ℕ) : ℂ :=
  ∑ t ∈ Finset.range L, exp (sign * (2 * Real.pi * I * (t * j / L))) * x t

/-- time of index `t` on the mesh of `L + 1` points -/
def tauOf (beta : ℝ) (L t : ℕ) : ℝ := beta * t / L

/-- phase `exp(iomega * t)` for fermions, none for bosons, lines 142,160,171,300,302 -/
def shiftPhase (s : Stat) (beta tau : ℝ) (sign : ℤ) : ℂ :=
  match s with
  | .fermion => exp (sign * (Real.pi * I / beta * tau))
  | .boson => 1

/-- `(w.index() + L) % L` -/
def wrap (L : ℕ) (m : ℤ) : ℕ := ((m + L) % L).toNat

/-- frequency indices of an imfreq mesh with `N` positive frequencies (full mesh) -/
def wIndices : Stat → ℕ → List ℤ
  | .fermion, N => (List.range (2 * N)).map fun j : ℕ => (j : ℤ) - N
  | .boson, N => (List.range (2 * N - 1)).map fun j : ℕ => (j : ℤ) - (N - 1)

/-- first moment from the boundary values, `/repo/c++/triqs_tprf/fourier/fourier_matsubara.cpp:151,163`. -/
def firstMoment : Stat → ℂ → ℂ → ℂ
  | .fermion, g0, gL => -(g0 + gL)
  | .boson, g0, gL => -(g0 - gL)

/-- `pm`, `/repo/c++/triqs_tprf/fourier/fourier_matsubara.cpp:304`. -/
def boundarySign : Stat → ℂ
  | .fermion => -1
  | .boson => 1

/-- imaginary time → Matsubara, `/repo/c++/triqs_tprf/fourier/fourier_matsubara.cpp:123-184`, with given second and
third moments; `N` is `last_index + 1`. -/
def tauToW (s : Stat) (beta : ℝ) (L N : ℕ) (m2 m3 : ℂ) (gt : ℕ → ℂ) : Except String (ℤ → ℂ) :=
  if L < 2 * N then .error "Fourier: The time mesh mush be at least twice as long"
  else
    let m1 := firstMoment s (gt 0) (gt L)
    let gin := fun t => (beta / L : ℂ) * (shiftPhase s beta (tauOf beta L t) 1
      * (gt t - tailT s m1 m2 m3 beta (tauOf beta L t)))
    .ok fun m => fftw1 1 L gin (wrap L m) + tailW s m1 m2 m3 (matsubara s beta m)

/-- one store into `_gin`, `/repo/c++/triqs_tprf/fourier/fourier_matsubara.cpp:290`. -/
def ginStore (s : Stat) (beta : ℝ) (L : ℕ) (m1 m2 m3 : ℂ) (gw : ℤ → ℂ) (acc : ℕ → ℂ) (m : ℤ) : ℕ → ℂ :=
  Function.update acc (wrap L m) ((1 / beta : ℂ) * (gw m - tailW s m1 m2 m3 (matsubara s beta m)))

/-- Matsubara → imaginary time, `/repo/c++/triqs_tprf/fourier/fourier_matsubara.cpp:218-308`, with given moments. -/
def wToTau (s : Stat) (beta : ℝ) (L N : ℕ) (m1 m2 m3 : ℂ) (gw : ℤ → ℂ) : Except String (ℕ → ℂ) :=
  if L < 2 * N then .error "Inverse Fourier: The time mesh mush be at least twice as long"
  else
    let gin := (wIndices s N).foldl (ginStore s beta L m1 m2 m3 gw) fun _ => 0
    let gt := fun t => fftw1 (-1) L gin t * shiftPhase s beta (tauOf beta L t) (-1)
      + tailT s m1 m2 m3 beta (tauOf beta L t)
    .ok (Function.update gt L (boundarySign s * (gt 0 + m1)))

end Verif.Fourier
