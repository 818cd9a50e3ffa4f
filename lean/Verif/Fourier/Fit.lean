import Verif.Fourier.Model
import Mathlib.LinearAlgebra.Matrix.Notation

/-!
# Fit of the high frequency moments

Model of `/repo/c++/triqs_tprf/fourier/fourier_matsubara.cpp:42-95,123-124`: the second and third moment of a function in
imaginary time from the nine values at either end of the mesh, and the transform to Matsubara frequencies with these moments.
The entries of `V_inv` are the decimal numbers in the source; their conversion to doubles is left out. Reading beyond the end of
the mesh (undefined in C++) is an error.
-/

noncomputable section

namespace Verif.Fourier

/-- `V_inv`, `/repo/c++/triqs_tprf/fourier/fourier_matsubara.cpp:57-72` -/
def vInv : Matrix (Fin 8) (Fin 8) ℚ :=
  !![8.000000000008853, -28.000000000055913, 56.000000000151815, -70.00000000021936, 56.00000000020795,
      -28.000000000115904, 8.00000000003683, -1.0000000000049232;
    -13.742857142879107, 62.10000000013776, -133.5333333337073, 172.75000000055635, -141.00000000052023,
      71.43333333362274, -20.600000000091182, 2.592857142869304;
    9.694444444465196, -50.98055555568518, 119.55000000035201, -161.8888888894241, 135.86111111160685,
      -70.12500000027573, 20.494444444530682, -2.6055555555670558;
    -3.6555555555654573, 21.23472222228416, -53.60000000016842, 76.34027777803497, -66.27777777801586,
      35.03750000013273, -10.422222222263619, 1.3430555555610917;
    0.7986111111137331, -4.97222222223865, 13.312500000044732, -19.888888888957325, 17.923611111174495,
      -9.750000000035401, 2.9652777777888164, -0.38888888889036743;
    -0.1013888888892789, 0.6638888888913357, -1.862500000006671, 2.902777777787997, -2.71527777778725,
      1.5250000000052975, -0.47638888889054154, 0.06388888888911043;
    0.0069444444444749, -0.047222222222413485, 0.13750000000052204, -0.22222222222302282, 0.2152777777785205,
      -0.12500000000041575, 0.04027777777790756, -0.00555555555557296;
    -0.0001984126984136688, 0.0013888888888949882, -0.00416666666668333, 0.006944444444470023,
      -0.006944444444468193, 0.004166666666679969, -0.0013888888888930434, 0.00019841269841325577]

/-- `fit_derivatives`, `/repo/c++/triqs_tprf/fourier/fourier_matsubara.cpp:42-95`, one component; the mesh has `L + 1`
points -/
def fitDerivatives (s : Stat) (beta : ℝ) (L : ℕ) (gt : ℕ → ℂ) : Except String (ℂ × ℂ) :=
  if L < 8 then .error "index outside of the mesh"
  else
    let dLeft : Fin 8 → ℂ := fun m => (gt (m + 1) - gt 0) / tauOf beta L (m + 1)
    let dRight : Fin 8 → ℂ := fun m => (gt L - gt (L - (m + 1))) / tauOf beta L (m + 1)
    let gLeft : Fin 8 → ℂ := fun i => ∑ m, (vInv i m : ℂ) * dLeft m
    let gRight : Fin 8 → ℂ := fun i => ∑ m, (vInv i m : ℂ) * dRight m
    .ok (gLeft 0 - boundarySign s * gRight 0, -(gLeft 1 + boundarySign s * gRight 1) * 2 / (beta / L : ℝ))

/-- `_fourier_impl` without moments, `/repo/c++/triqs_tprf/fourier/fourier_matsubara.cpp:123-124`, after `_fourier_plan`
(lines 101-105) -/
def tauToWFit (s : Stat) (beta : ℝ) (L N : ℕ) (gt : ℕ → ℂ) : Except String (ℤ → ℂ) :=
  if L < 2 * N then .error "Fourier: The time mesh mush be at least twice as long"
  else
    match fitDerivatives s beta L gt with
    | .error e => .error e
    | .ok (m2, m3) => tauToW s beta L N m2 m3 gt

end Verif.Fourier
