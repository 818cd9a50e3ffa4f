import Verif.HubbardAtom.Model
import Mathlib.Topology.Algebra.InfiniteSum.Basic
import Mathlib.Analysis.Complex.Basic

/-!
# What C71 and C81 say

`MatMul A B C` : the product of two matrices with infinitely many rows and columns (one for every fermionic frequency)
exists and is `C`.
-/

noncomputable section

namespace Verif.HubbardAtom

/-- every entry of the product of the infinite matrices `A` and `B` converges, to the entry of `C` -/
def MatMul (A B C : ℤ → ℤ → ℂ) : Prop := ∀ n k, HasSum (fun j => A n j * B j k) (C n k)

/-- Bethe-Salpeter equation at one bosonic frequency, `Γ = χ0⁻¹ - χ⁻¹` multiplied by `χ` and `χ0` from the two sides:
`χ Γ χ0 = χ - χ0` and `χ0 Γ χ = χ - χ0`, `/repo/python/triqs_tprf/analytic_hubbard_atom.py:55-59` -/
def BetheSalpeter (chi0 chi gamma : ℤ → ℤ → ℂ) : Prop :=
  (∃ X, MatMul chi gamma X ∧ MatMul X chi0 (chi - chi0)) ∧ (∃ X, MatMul gamma chi X ∧ MatMul chi0 X (chi - chi0))

/-- None of the denominators of the code vanishes: those of `a0` and `b0` of the vertex at every frequency, the root and
the inner denominator of `D`. -/
structure Regular (beta U : ℝ) (m : ℤ) : Prop where
  hA : ∀ n, -iv beta n * (iv beta n + iw beta m) - cA U * cA U ≠ 0
  hB : ∀ n, -iv beta n * (iv beta n + iw beta m) - cB beta U * cB beta U ≠ 0
  hr : csqrt (4 * cB beta U * cB beta U - iw beta m * iw beta m) ≠ 0
  hD : vDen beta U (iw beta m) ≠ 0

end Verif.HubbardAtom
