import Verif.FreqConv.Model
import Mathlib.Analysis.SpecialFunctions.Pow.Complex
import Mathlib.Analysis.Complex.Trigonometric

/-!
# The Hubbard atom

Model of `/repo/c++/triqs_tprf/hubbard_atom.cpp` and of the part of
`/repo/python/triqs_tprf/analytic_hubbard_atom.py` that puts the functions together.

Frequencies are given by their integer index: `iv beta n` is the value of the fermionic, `iw beta m` that of the
bosonic frequency.  All frequencies are present (the code evaluates the same formulas on a finite window).  Floating
point numbers are real or complex numbers, `sqrt` of a complex number is the principal power `1/2`.
-/

noncomputable section

namespace Verif.HubbardAtom

open Complex

/-- value of a fermionic Matsubara frequency -/
def iv (beta : ℝ) (n : ℤ) : ℂ := I * ((2 * n + 1) * Real.pi / beta : ℝ)

/-- value of a bosonic Matsubara frequency -/
def iw (beta : ℝ) (m : ℤ) : ℂ := I * (2 * m * Real.pi / beta : ℝ)

/-- `std::sqrt` of a complex number -/
def csqrt (z : ℂ) : ℂ := z ^ ((1 : ℂ) / 2)

/-- `kronecker` -/
def kr (i j : ℤ) : ℂ := if i = j then 1 else 0

/-- `single_particle_greens_function`, `/repo/c++/triqs_tprf/hubbard_atom.cpp:43-47` -/
def g (beta U : ℝ) (n : ℤ) : ℂ := 1 / (iv beta n - U * U / (4 * iv beta n))

/-- `A`, `/repo/c++/triqs_tprf/hubbard_atom.cpp:61,104` -/
def cA (U : ℝ) : ℂ := I * U * 0.5

/-- `B`, `/repo/c++/triqs_tprf/hubbard_atom.cpp:62,106`; the argument of this `sqrt` is a real number -/
def cB (beta U : ℝ) : ℂ :=
  I * U * 0.5 * (Real.sqrt (|3 - Real.exp (beta * U * 0.5)| / (1 + Real.exp (beta * U * 0.5))) : ℝ)

/-- `C`, `/repo/c++/triqs_tprf/hubbard_atom.cpp:63-64` -/
def cC (beta U : ℝ) (m : ℤ) : ℂ :=
  if m = 0 then ((-beta * U * 0.5 / (1 + Real.exp (-beta * U * 0.5)) : ℝ) : ℂ) else 0

/-- `D` of the susceptibility, `/repo/c++/triqs_tprf/hubbard_atom.cpp:65` -/
def cD (beta U : ℝ) (m : ℤ) : ℂ := U * U * 0.25 * (1 + cC beta U m) / (1 - cC beta U m)

/-- the denominator `(-n*n + U*U*0.25) * (-(n+w)*(n+w) + U*U*0.25)` -/
def den (U : ℝ) (n w : ℂ) : ℂ := (-n * n + U * U * 0.25) * (-(n + w) * (n + w) + U * U * 0.25)

/-- `a0`, `/repo/c++/triqs_tprf/hubbard_atom.cpp:72-73` -/
def a0 (beta U : ℝ) (n w : ℂ) : ℂ := beta * 0.5 * (-n * (n + w) - cA U * cA U) / den U n w

/-- `b0`, `/repo/c++/triqs_tprf/hubbard_atom.cpp:75-76` -/
def b0 (beta U : ℝ) (n w : ℂ) : ℂ := beta * 0.5 * (-n * (n + w) - cB beta U * cB beta U) / den U n w

/-- `b1`, `/repo/c++/triqs_tprf/hubbard_atom.cpp:78-79` -/
def b1 (beta U : ℝ) (m : ℤ) (n w : ℂ) : ℂ :=
  csqrt (U * (1 - cC beta U m)) * (-n * (n + w) - cD beta U m) / den U n w

/-- `b2`, `/repo/c++/triqs_tprf/hubbard_atom.cpp:81-82`; the first `sqrt` is that of a real number -/
def b2 (beta U : ℝ) (m : ℤ) (n w : ℂ) : ℂ :=
  I * (Real.sqrt (U * U * U * 0.25) : ℝ) * csqrt (U * U / (1 - cC beta U m) - w * w) / den U n w

/-- `chi_ph_magnetic`, `/repo/c++/triqs_tprf/hubbard_atom.cpp:49-89`; the frequency `-w - n2` has index
`-m - n2 - 1`. -/
def chi (beta U : ℝ) (m n1 n2 : ℤ) : ℂ :=
  let w := iw beta m
  kr n1 n2 * (b0 beta U (iv beta n1) w + a0 beta U (iv beta n1) w)
    + kr n1 (-m - n2 - 1) * (b0 beta U (iv beta n1) w - a0 beta U (iv beta n1) w)
    + b1 beta U m (iv beta n1) w * b1 beta U m (iv beta n2) w
    + b2 beta U m (iv beta n1) w * b2 beta U m (iv beta n2) w

/-- `a0` of the vertex, `/repo/c++/triqs_tprf/hubbard_atom.cpp:113-115` -/
def va0 (beta U : ℝ) (n w : ℂ) : ℂ :=
  beta * 0.5 * cA U * cA U * den U n w / ((-n * (n + w) - cA U * cA U) * (-n * (n + w)))

/-- `b0` of the vertex, `/repo/c++/triqs_tprf/hubbard_atom.cpp:117-119` -/
def vb0 (beta U : ℝ) (n w : ℂ) : ℂ :=
  beta * 0.5 * cB beta U * cB beta U * den U n w
    / ((-n * (n + w) - cB beta U * cB beta U) * (-n * (n + w)))

/-- the inner denominator `U*tan( beta*0.25*(sqrtBBww - I*w) ) / sqrtBBww - s`,
`/repo/c++/triqs_tprf/hubbard_atom.cpp:128` -/
def vDen (beta U : ℝ) (w : ℂ) : ℂ :=
  let s := csqrt (4 * cB beta U * cB beta U - w * w)
  U * tan (beta * 0.25 * (s - I * w)) / s - 1

/-- `D` of the vertex, `/repo/c++/triqs_tprf/hubbard_atom.cpp:121-129` -/
def vD (beta U : ℝ) (w : ℂ) : ℂ :=
  -U * (U * U * 0.25 * (U * U * 0.25 * (4 * cB beta U * cB beta U / (U * U) + 1) ^ 2 - w * w))
    / vDen beta U w

/-- `gamma_ph_magnetic`, `/repo/c++/triqs_tprf/hubbard_atom.cpp:91-146`, `s = 1` -/
def gamma (beta U : ℝ) (m n1 n2 : ℤ) : ℂ :=
  let w := iw beta m
  let x1 := iv beta n1
  let x2 := iv beta n2
  (-1 / beta / beta) *
    (kr n1 n2 * (vb0 beta U x1 w + va0 beta U x1 w)
      + kr n1 (-m - n2 - 1) * (vb0 beta U x1 w - va0 beta U x1 w)
      + vD beta U w / (-x1 * (x1 + w) - cB beta U * cB beta U) / (-x2 * (x2 + w) - cB beta U * cB beta U)
      - U)

/-- `chi0_m` of `analytic_hubbard_atom`, `/repo/python/triqs_tprf/analytic_hubbard_atom.py:101-105`: the bubble of
`Verif.FreqConv.chi0PH` for a single orbital -/
def chi0 (beta U : ℝ) (m n1 n2 : ℤ) : ℂ :=
  FreqConv.chi0PH (o := Unit) (beta : ℂ) (fun n _ _ => g beta U n) m n1 n2 () () () ()

/-- `Z`, `m2` and `chi_m_static`, `/repo/python/triqs_tprf/analytic_hubbard_atom.py:116-118` -/
def chiStatic (beta U : ℝ) : ℝ :=
  let Z := 2 + 2 * Real.exp (-beta * 0.5 * U)
  let m2 := 0.25 * (2 / Z)
  2 * beta * m2

end Verif.HubbardAtom
