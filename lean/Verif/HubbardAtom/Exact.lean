import Verif.Fock.Free
import Verif.HubbardAtom.Model
import Mathlib.LinearAlgebra.Matrix.Notation
import Mathlib.MeasureTheory.Integral.IntervalIntegral.Basic

/-!
# The Hubbard atom on its Fock space

Specification of C123: the Hamiltonian `U n_up n_dn - U/2 (n_up + n_dn)` on the four states of an atom, time ordered
products, and the two-particle correlation function as integral over imaginary times.
-/

noncomputable section

set_option linter.unusedSectionVars false

namespace Verif.HubbardAtom

open NormedSpace Matrix

/-- operators on the states `|0>, |up>, |dn>, |up dn>` -/
abbrev Op4 := Matrix (Fin 4) (Fin 4) ℂ

/-- annihilation operators of spin up (`0`) and down (`1`) -/
def ann : Fin 2 → Op4 :=
  ![!![0, 1, 0, 0; 0, 0, 0, 0; 0, 0, 0, 1; 0, 0, 0, 0], !![0, 0, 1, 0; 0, 0, 0, -1; 0, 0, 0, 0; 0, 0, 0, 0]]

/-- occupation number -/
def occ (σ : Fin 2) : Op4 := (ann σ)ᴴ * ann σ

/-- the atom at half filling, `mu = U/2` -/
def atomH (U : ℝ) : Op4 := (U : ℂ) • (occ 0 * occ 1) - ((U / 2 : ℝ) : ℂ) • (occ 0 + occ 1)

/-- `X(τ) = exp(τ H) X exp(-τ H)` -/
def heis (U : ℝ) (X : Op4) (τ : ℝ) : ℝ × Op4 :=
  (τ, exp (((τ : ℝ) : ℂ) • atomH U) * X * exp (((-τ : ℝ) : ℂ) • atomH U))

/-- insert an operator into a time ordered list, with a sign for every exchange -/
def tInsert (x : ℝ × Op4) : List (ℝ × Op4) → List (ℝ × Op4) × ℂ
  | [] => ([x], 1)
  | y :: l => if y.1 ≤ x.1 then (x :: y :: l, 1) else (y :: (tInsert x l).1, -(tInsert x l).2)

/-- order fermionic operators by their times, later times to the left -/
def tSort : List (ℝ × Op4) → List (ℝ × Op4) × ℂ
  | [] => ([], 1)
  | x :: l => ((tInsert x (tSort l).1).1, (tInsert x (tSort l).1).2 * (tSort l).2)

/-- time ordered product of fermionic operators -/
def tProd (l : List (ℝ × Op4)) : Op4 := (tSort l).2 • ((tSort l).1.map Prod.snd).prod

/-- `-<T c_σ(τ) c^+_σ(0)>` -/
def gTau (beta U : ℝ) (σ : Fin 2) (τ : ℝ) : ℂ :=
  -Fock.thermal beta (atomH U) (tProd [heis U (ann σ) τ, heis U (ann σ)ᴴ 0])

/-- `<T c^+_σ(τ1) c_σ(τ2) c^+_σ'(τ3) c_σ'(0)>` -/
def g2Tau (beta U : ℝ) (σ σ' : Fin 2) (τ1 τ2 τ3 : ℝ) : ℂ :=
  Fock.thermal beta (atomH U)
    (tProd [heis U (ann σ)ᴴ τ1, heis U (ann σ) τ2, heis U (ann σ')ᴴ τ3, heis U (ann σ') 0])

/-- the two-particle correlation function at the frequencies `ω_m`, `ν_n1`, `ν_n2` of the particle-hole channel,
`∫ exp(-iν_n1 τ1 + i(ν_n1 + ω_m) τ2 - i(ν_n2 + ω_m) τ3) <T c^+_σ(τ1) c_σ(τ2) c^+_σ'(τ3) c_σ'(0)>` over all times in
`[0, β]` -/
def g2Freq (beta U : ℝ) (σ σ' : Fin 2) (m n1 n2 : ℤ) : ℂ :=
  ∫ τ3 in (0 : ℝ)..beta, ∫ τ2 in (0 : ℝ)..beta, ∫ τ1 in (0 : ℝ)..beta,
    Complex.exp (-iv beta n1 * τ1 + (iv beta n1 + iw beta m) * τ2 - (iv beta n2 + iw beta m) * τ3)
      * g2Tau beta U σ σ' τ1 τ2 τ3

/-- the one-particle Green's function at the frequency `ν_n` -/
def gFreq (beta U : ℝ) (σ : Fin 2) (n : ℤ) : ℂ :=
  ∫ τ in (0 : ℝ)..beta, Complex.exp (iv beta n * τ) * gTau beta U σ τ

/-- the generalised susceptibility `χ_σσ' = G2_σσ' - β δ_ω G_σ G_σ'` of the particle-hole channel -/
def chiFreq (beta U : ℝ) (σ σ' : Fin 2) (m n1 n2 : ℤ) : ℂ :=
  g2Freq beta U σ σ' m n1 n2 - if m = 0 then beta * gFreq beta U σ n1 * gFreq beta U σ' n2 else 0

/-- the magnetic susceptibility `χ_m = χ_up,up - χ_up,dn` -/
def chiMagnetic (beta U : ℝ) (m n1 n2 : ℤ) : ℂ := chiFreq beta U 0 0 m n1 n2 - chiFreq beta U 0 1 m n1 n2

/-- the `z` component of the spin -/
def spinZ : Op4 := (1 / 2 : ℂ) • (occ 0 - occ 1)

/-! ## Explicit form -/

/-- `c_up(τ)`, `x = exp(τ U/2)` -/
def cu (x : ℂ) : Op4 := !![0, x, 0, 0; 0, 0, 0, 0; 0, 0, 0, x⁻¹; 0, 0, 0, 0]
/-- `c^+_up(τ)` -/
def cuD (x : ℂ) : Op4 := !![0, 0, 0, 0; x⁻¹, 0, 0, 0; 0, 0, 0, 0; 0, 0, x, 0]
/-- `c_dn(τ)` -/
def cd (x : ℂ) : Op4 := !![0, 0, x, 0; 0, 0, 0, -x⁻¹; 0, 0, 0, 0; 0, 0, 0, 0]
/-- `c^+_dn(τ)` -/
def cdD (x : ℂ) : Op4 := !![0, 0, 0, 0; 0, 0, 0, 0; x⁻¹, 0, 0, 0; 0, -x, 0, 0]

theorem atomH_eq (U : ℝ) : atomH U = diagonal ![0, -(U / 2 : ℂ), -(U / 2 : ℂ), 0] := by
  have h0 : occ 0 = diagonal ![0, 1, 0, 1] := by
    ext i j
    fin_cases i <;> fin_cases j <;> simp [occ, ann, Matrix.mul_apply, Fin.sum_univ_four]
  have h1 : occ 1 = diagonal ![0, 0, 1, 1] := by
    ext i j
    fin_cases i <;> fin_cases j <;> simp [occ, ann, Matrix.mul_apply, Fin.sum_univ_four]
  rw [atomH, h0, h1, diagonal_mul_diagonal]
  ext i j
  fin_cases i <;> fin_cases j <;> simp
  ring

theorem exp_atomH (U τ : ℝ) : exp (((τ : ℝ) : ℂ) • atomH U)
    = diagonal ![1, Complex.exp (-(τ * (U / 2))), Complex.exp (-(τ * (U / 2))), 1] := by
  rw [atomH_eq, ← diagonal_smul, Matrix.exp_diagonal]
  congr 1
  funext i
  rw [Pi.coe_exp, ← Complex.exp_eq_exp_ℂ]
  fin_cases i <;> simp

theorem heis_cu (U τ : ℝ) : heis U (ann 0) τ = (τ, cu (Complex.exp (τ * (U / 2)))) := by
  rw [heis, exp_atomH, exp_atomH]
  congr 1
  ext i j
  fin_cases i <;> fin_cases j <;> simp [ann, cu, Matrix.mul_apply, Fin.sum_univ_four, Complex.exp_neg]

theorem heis_cuD (U τ : ℝ) : heis U (ann 0)ᴴ τ = (τ, cuD (Complex.exp (τ * (U / 2)))) := by
  rw [heis, exp_atomH, exp_atomH]
  congr 1
  ext i j
  fin_cases i <;> fin_cases j <;> simp [ann, cuD, Matrix.mul_apply, Fin.sum_univ_four, Complex.exp_neg]

theorem heis_cd (U τ : ℝ) : heis U (ann 1) τ = (τ, cd (Complex.exp (τ * (U / 2)))) := by
  rw [heis, exp_atomH, exp_atomH]
  congr 1
  ext i j
  fin_cases i <;> fin_cases j <;> simp [ann, cd, Matrix.mul_apply, Fin.sum_univ_four, Complex.exp_neg]

theorem heis_cdD (U τ : ℝ) : heis U (ann 1)ᴴ τ = (τ, cdD (Complex.exp (τ * (U / 2)))) := by
  rw [heis, exp_atomH, exp_atomH]
  congr 1
  ext i j
  fin_cases i <;> fin_cases j <;> simp [ann, cdD, Matrix.mul_apply, Fin.sum_univ_four, Complex.exp_neg]

theorem thermal_eq (beta U : ℝ) (X : Op4) : Fock.thermal beta (atomH U) X
    = (X 0 0 + Complex.exp (beta * (U / 2)) * (X 1 1 + X 2 2) + X 3 3) / (2 * (1 + Complex.exp (beta * (U / 2)))) := by
  simp only [Fock.thermal, LinearMap.coe_mk, AddHom.coe_mk]
  rw [exp_atomH, Matrix.trace_diagonal]
  congr 1
  · simp only [Matrix.trace, Matrix.diag, Matrix.diagonal_mul, Fin.sum_univ_four]
    simp
    ring
  · simp [Fin.sum_univ_four]
    ring

/-! ### Time orderings -/

section Orders

variable {t1 t2 t3 : ℝ} {X1 X2 X3 X4 : Op4}

theorem tProd_two_gt (h : 0 < t1) : tProd [(t1, X1), (0, X2)] = X1 * X2 := by
  simp [tProd, tSort, tInsert, h.le]

theorem tProd_123 (h0 : 0 < t3) (h1 : t3 < t2) (h2 : t2 < t1) :
    tProd [(t1, X1), (t2, X2), (t3, X3), (0, X4)] = X1 * (X2 * (X3 * X4)) := by
  simp [tProd, tSort, tInsert, h0.le, h1.le, h2.le]

theorem tProd_132 (h0 : 0 < t2) (h1 : t2 < t3) (h2 : t3 < t1) :
    tProd [(t1, X1), (t2, X2), (t3, X3), (0, X4)] = -(X1 * (X3 * (X2 * X4))) := by
  simp [tProd, tSort, tInsert, h0.le, (h0.trans h1).le, h1.not_ge, h2.le]

theorem tProd_213 (h0 : 0 < t3) (h1 : t3 < t1) (h2 : t1 < t2) :
    tProd [(t1, X1), (t2, X2), (t3, X3), (0, X4)] = -(X2 * (X1 * (X3 * X4))) := by
  simp [tProd, tSort, tInsert, h0.le, h1.le, h2.not_ge, (h1.trans h2).le]

theorem tProd_231 (h0 : 0 < t1) (h1 : t1 < t3) (h2 : t3 < t2) :
    tProd [(t1, X1), (t2, X2), (t3, X3), (0, X4)] = X2 * (X3 * (X1 * X4)) := by
  simp [tProd, tSort, tInsert, h0.le, (h0.trans h1).le, h1.not_ge, h2.le, (h1.trans h2).not_ge]

theorem tProd_312 (h0 : 0 < t2) (h1 : t2 < t1) (h2 : t1 < t3) :
    tProd [(t1, X1), (t2, X2), (t3, X3), (0, X4)] = X3 * (X1 * (X2 * X4)) := by
  simp [tProd, tSort, tInsert, h0.le, (h0.trans (h1.trans h2)).le, h1.le, h2.not_ge, (h1.trans h2).not_ge]

theorem tProd_321 (h0 : 0 < t1) (h1 : t1 < t2) (h2 : t2 < t3) :
    tProd [(t1, X1), (t2, X2), (t3, X3), (0, X4)] = -(X3 * (X2 * (X1 * X4))) := by
  simp [tProd, tSort, tInsert, h0.le, (h0.trans h1).le, (h0.trans (h1.trans h2)).le, h1.not_ge, h2.not_ge,
    (h1.trans h2).not_ge]

end Orders

variable {beta U t1 t2 t3 : ℝ}

/-- spins up and down, explicitly -/
theorem g2_ud (beta U : ℝ) (h1 : 0 < t1) (h2 : 0 < t2) (h3 : 0 < t3) (h12 : t1 ≠ t2) (h13 : t1 ≠ t3) (h23 : t2 ≠ t3) :
    g2Tau beta U 0 1 t1 t2 t3 =
      let x (τ : ℝ) := Complex.exp (τ * (U / 2))
      (if t2 < t3 then x t2 else x t3 ^ 2 / x t2) / (if t1 < t3 then x t1 else x t3 ^ 2 / x t1)
        * (if t1 < t2 then -(x beta / x t3) else x t3) / (2 * (1 + x beta)) := by
  simp only [g2Tau, heis_cuD, heis_cu, heis_cdD, heis_cd]
  obtain ⟨x1, e1⟩ : ∃ x1, x1 = Complex.exp (t1 * (U / 2)) := ⟨_, rfl⟩
  obtain ⟨x2, e2⟩ : ∃ x2, x2 = Complex.exp (t2 * (U / 2)) := ⟨_, rfl⟩
  obtain ⟨x3, e3⟩ : ∃ x3, x3 = Complex.exp (t3 * (U / 2)) := ⟨_, rfl⟩
  have n1 : x1 ≠ 0 := e1 ▸ Complex.exp_ne_zero _
  have n2 : x2 ≠ 0 := e2 ▸ Complex.exp_ne_zero _
  have n3 : x3 ≠ 0 := e3 ▸ Complex.exp_ne_zero _
  rw [thermal_eq, ← e1, ← e2, ← e3, Complex.ofReal_zero, zero_mul, Complex.exp_zero]
  congr 1
  rcases lt_or_gt_of_ne h12 with a | a <;> rcases lt_or_gt_of_ne h13 with b | b <;>
    rcases lt_or_gt_of_ne h23 with c | c
  · rw [tProd_321 h1 a c, if_pos c, if_pos b, if_pos a]
    simp [cdD, cu, cuD, cd, Matrix.mul_apply, Fin.sum_univ_four]
    field_simp
  · rw [tProd_231 h1 b c, if_neg c.not_gt, if_pos b, if_pos a]
    simp [cdD, cu, cuD, cd, Matrix.mul_apply, Fin.sum_univ_four]
    field_simp
  · exact absurd (a.trans c) b.not_gt
  · rw [tProd_213 h3 b a, if_neg c.not_gt, if_neg b.not_gt, if_pos a]
    simp [cdD, cu, cuD, cd, Matrix.mul_apply, Fin.sum_univ_four]
    field_simp
  · rw [tProd_312 h2 a b, if_pos c, if_pos b, if_neg a.not_gt]
    simp [cdD, cu, cuD, cd, Matrix.mul_apply, Fin.sum_univ_four]
    field_simp
  · exact absurd (c.trans a) b.not_gt
  · rw [tProd_132 h2 c b, if_pos c, if_neg b.not_gt, if_neg a.not_gt]
    simp [cdD, cu, cuD, cd, Matrix.mul_apply, Fin.sum_univ_four]
    field_simp
  · rw [tProd_123 h3 c a, if_neg c.not_gt, if_neg b.not_gt, if_neg a.not_gt]
    simp [cdD, cu, cuD, cd, Matrix.mul_apply, Fin.sum_univ_four]
    field_simp

/-- equal spins, explicitly -/
theorem g2_uu (beta U : ℝ) (h1 : 0 < t1) (h2 : 0 < t2) (h3 : 0 < t3) (h12 : t1 ≠ t2) (h13 : t1 ≠ t3) (h23 : t2 ≠ t3) :
    g2Tau beta U 0 0 t1 t2 t3 =
      let x (τ : ℝ) := Complex.exp (τ * (U / 2))
      (if t2 < t1 ∧ t3 < t2 then 1 else if t1 < t2 ∧ t2 < t3 then -1 else 0)
        * (x beta * x t2 / (x t1 * x t3) + x t1 * x t3 / x t2) / (2 * (1 + x beta)) := by
  simp only [g2Tau, heis_cuD, heis_cu, heis_cdD, heis_cd]
  obtain ⟨x1, e1⟩ : ∃ x1, x1 = Complex.exp (t1 * (U / 2)) := ⟨_, rfl⟩
  obtain ⟨x2, e2⟩ : ∃ x2, x2 = Complex.exp (t2 * (U / 2)) := ⟨_, rfl⟩
  obtain ⟨x3, e3⟩ : ∃ x3, x3 = Complex.exp (t3 * (U / 2)) := ⟨_, rfl⟩
  have n1 : x1 ≠ 0 := e1 ▸ Complex.exp_ne_zero _
  have n2 : x2 ≠ 0 := e2 ▸ Complex.exp_ne_zero _
  have n3 : x3 ≠ 0 := e3 ▸ Complex.exp_ne_zero _
  rw [thermal_eq, ← e1, ← e2, ← e3, Complex.ofReal_zero, zero_mul, Complex.exp_zero]
  congr 1
  rcases lt_or_gt_of_ne h12 with a | a <;> rcases lt_or_gt_of_ne h13 with b | b <;>
    rcases lt_or_gt_of_ne h23 with c | c
  · rw [tProd_321 h1 a c, if_neg fun h => a.not_gt h.1, if_pos ⟨a, c⟩]
    simp [cu, cuD, Matrix.mul_apply, Fin.sum_univ_four]
    field_simp
    ring
  · rw [tProd_231 h1 b c, if_neg fun h => a.not_gt h.1, if_neg fun h => c.not_gt h.2]
    simp [cu, cuD, Matrix.mul_apply, Fin.sum_univ_four]
  · exact absurd (a.trans c) b.not_gt
  · rw [tProd_213 h3 b a, if_neg fun h => a.not_gt h.1, if_neg fun h => c.not_gt h.2]
    simp [cu, cuD, Matrix.mul_apply, Fin.sum_univ_four]
  · rw [tProd_312 h2 a b, if_neg fun h => c.not_gt h.2, if_neg fun h => a.not_gt h.1]
    simp [cu, cuD, Matrix.mul_apply, Fin.sum_univ_four]
  · exact absurd (c.trans a) b.not_gt
  · rw [tProd_132 h2 c b, if_neg fun h => c.not_gt h.2, if_neg fun h => a.not_gt h.1]
    simp [cu, cuD, Matrix.mul_apply, Fin.sum_univ_four]
  · rw [tProd_123 h3 c a, if_pos ⟨a, c⟩]
    simp [cu, cuD, Matrix.mul_apply, Fin.sum_univ_four]
    field_simp

/-- the one-particle function of both spins, explicitly -/
theorem g_eq (beta U : ℝ) (σ : Fin 2) (h : 0 < t1) :
    gTau beta U σ t1 = -(Complex.exp (t1 * (U / 2)) + Complex.exp (beta * (U / 2)) / Complex.exp (t1 * (U / 2)))
      / (2 * (1 + Complex.exp (beta * (U / 2)))) := by
  have hσ : σ = 0 ∨ σ = 1 := by fin_cases σ <;> simp
  obtain ⟨x1, e1⟩ : ∃ x1, x1 = Complex.exp (t1 * (U / 2)) := ⟨_, rfl⟩
  rcases hσ with rfl | rfl
  · rw [gTau, heis_cu, heis_cuD, tProd_two_gt h, thermal_eq, ← e1, Complex.ofReal_zero, zero_mul, Complex.exp_zero, neg_div]
    congr 2
    simp [cu, cuD, Matrix.mul_apply, Fin.sum_univ_four]
    ring
  · rw [gTau, heis_cd, heis_cdD, tProd_two_gt h, thermal_eq, ← e1, Complex.ofReal_zero, zero_mul, Complex.exp_zero, neg_div]
    congr 2
    simp [cd, cdD, Matrix.mul_apply, Fin.sum_univ_four]
    ring

end Verif.HubbardAtom
