import Mathlib.Analysis.Complex.Exponential
import Mathlib.Analysis.Complex.Trigonometric
import Mathlib.Analysis.Real.Pi.Bounds
import Mathlib.LinearAlgebra.Matrix.Hermitian
import Mathlib.Data.Matrix.Diagonal

/-!
# Tight binding models

Model of `/repo/python/triqs_tprf/tight_binding.py:31-124`. `TBLattice` (TRIQS) is represented by the
dictionary of hoppings handed to it; its Fourier transform `e(k) = Σ_r t(r) exp(2πi k·r)` (TRIQS
documentation) is used in statements only.
-/

noncomputable section

namespace Verif.TightBinding

open Complex Matrix

/-- hoppings of `create_square_lattice`, `/repo/python/triqs_tprf/tight_binding.py:76-94`; `N` counts spin. -/
def squareHoppings (N : ℕ) (t tp zeeman : ℂ) : List ((ℤ × ℤ) × Matrix (Fin N) (Fin N) ℂ) :=
  let tM := (-t) • (1 : Matrix (Fin N) (Fin N) ℂ)
  let tpM := (-tp) • (1 : Matrix (Fin N) (Fin N) ℂ)
  let zM := zeeman • (Matrix.diagonal fun orb : Fin N => (-1 : ℂ) ^ (orb : ℕ))
  [((0, 0), zM), ((0, 1), tM), ((0, -1), tM), ((1, 0), tM), ((-1, 0), tM),
   ((1, 1), tpM), ((-1, -1), tpM), ((1, -1), tpM), ((-1, 1), tpM)]

/-- `create_square_lattice`, `/repo/python/triqs_tprf/tight_binding.py:31-101`; `none` is the
`AttributeError`. -/
def createSquareLattice (norb : ℕ) (t tp zeeman : ℂ) (spin : Bool) :
    Option (Σ N : ℕ, List ((ℤ × ℤ) × Matrix (Fin N) (Fin N) ℂ)) :=
  if zeeman ≠ 0 ∧ spin = false then none
  else
    let norb := if spin then norb * 2 else norb
    some ⟨norb, squareHoppings norb t tp zeeman⟩

/-- `itertools.product([-1, 0, 1], repeat=dim)`, `/repo/python/triqs_tprf/tight_binding.py:115` -/
def product3 : ℕ → List (List ℤ)
  | 0 => [[]]
  | d + 1 => [-1, 0, 1].flatMap fun x => (product3 d).map (x :: ·)

/-- `create_model_for_tests`, `/repo/python/triqs_tprf/tight_binding.py:104-124`: hoppings; `none` is the
`NotImplementedError`. -/
def createModelForTests (norb dim : ℕ) (t t1 t2 t12 t21 : ℂ) :
    Option (Σ N : ℕ, List (List ℤ × Matrix (Fin N) (Fin N) ℂ)) :=
  let nn := (product3 dim).filter fun h => (h.map Int.natAbs).sum = 1
  match norb with
  | 1 => some ⟨1, nn.map fun h => (h, (-t) • 1)⟩
  | 2 => some ⟨2, nn.map fun h => (h, -!![t1, t12; t21, t2])⟩
  | _ => none

end Verif.TightBinding
