import Verif.HubbardAtom.Lemmas

/-!
# The model functions in terms of real frequencies
-/

noncomputable section

namespace Verif.HubbardAtom

open Complex

theorem csqrt_mul_self (z : ℂ) : csqrt z * csqrt z = z := by
  rw [csqrt, ← sq, ← Complex.cpow_nat_mul]
  norm_num

theorem neg_iv_mul (beta : ℝ) (m n : ℤ) : -iv beta n * (iv beta n + iw beta m) = (pp beta m n : ℂ) := by
  rw [iv, iw, pp, nu, om]
  push_cast
  linear_combination (-((2 * n + 1) * Real.pi / beta * ((2 * n + 1) * Real.pi / beta + 2 * m * Real.pi / beta) : ℂ)) * I_sq

theorem iw_mul (beta : ℝ) (m : ℤ) : iw beta m * iw beta m = -(om beta m : ℂ) ^ 2 := by
  rw [iw, om]
  push_cast
  linear_combination ((2 * m * Real.pi / beta : ℂ) ^ 2) * I_sq

theorem I_mul_iw (beta : ℝ) (m : ℤ) : I * iw beta m = -(om beta m : ℂ) := by
  rw [iw, om]
  push_cast
  linear_combination ((2 * m * Real.pi / beta : ℂ)) * I_sq

theorem den_eq (beta U : ℝ) (m n : ℤ) : den U (iv beta n) (iw beta m) = (nn beta U m n : ℂ) := by
  rw [den, nn, iv, iw, nu, om]
  push_cast
  have h1 : ∀ x : ℂ, -(I * x) * (I * x) = x ^ 2 := fun x => by linear_combination (-x ^ 2) * I_sq
  have h2 : ∀ x y : ℂ, -(I * x + I * y) * (I * x + I * y) = (x + y) ^ 2 := fun x y => by
    linear_combination (-(x + y) ^ 2) * I_sq
  rw [h1, h2]
  norm_num
  ring

theorem cA_mul (U : ℝ) : cA U * cA U = -(U : ℂ) ^ 2 / 4 := by
  rw [cA]
  linear_combination ((U : ℂ) ^ 2 / 4) * I_sq

/-- the square of `B` -/
def zB (beta U : ℝ) : ℝ := -(U ^ 2 / 4) * (|3 - Real.exp (beta * U / 2)| / (1 + Real.exp (beta * U / 2)))

theorem cB_mul (beta U : ℝ) : cB beta U * cB beta U = (zB beta U : ℂ) := by
  rw [cB, zB, show beta * U * 0.5 = beta * U / 2 by ring]
  obtain ⟨r, hr⟩ : ∃ r : ℝ, r = |3 - Real.exp (beta * U / 2)| / (1 + Real.exp (beta * U / 2)) := ⟨_, rfl⟩
  have h0 : 0 ≤ r := by rw [hr]; positivity
  rw [← hr]
  have hs : ((Real.sqrt r : ℝ) : ℂ) * (Real.sqrt r : ℝ) = r := by
    rw [← ofReal_mul, Real.mul_self_sqrt h0]
  push_cast
  have : I * (U : ℂ) * 0.5 * (Real.sqrt r : ℝ) * (I * U * 0.5 * (Real.sqrt r : ℝ))
      = (I ^ 2) * U ^ 2 / 4 * ((Real.sqrt r : ℝ) * (Real.sqrt r : ℝ)) := by
    ring
  rw [this, hs, I_sq]
  ring

/-- the square of the prefactor of `b1` -/
def s1 (beta U : ℝ) (m : ℤ) : ℂ := U * (1 - cC beta U m)

/-- the square of the prefactor of `b2` -/
def s2 (beta U : ℝ) (m : ℤ) : ℂ := -(U ^ 3 / 4) * (U ^ 2 / (1 - cC beta U m) + (om beta m : ℂ) ^ 2)

theorem a0_eq (beta U : ℝ) (m n : ℤ) :
    a0 beta U (iv beta n) (iw beta m) = beta / 2 * (pp beta m n + U ^ 2 / 4) / nn beta U m n := by
  rw [a0, neg_iv_mul, cA_mul, den_eq]
  congr 1
  ring

theorem b0_eq (beta U : ℝ) (m n : ℤ) :
    b0 beta U (iv beta n) (iw beta m) = beta / 2 * (pp beta m n - zB beta U) / nn beta U m n := by
  rw [b0, neg_iv_mul, cB_mul, den_eq]
  congr 1
  ring

theorem b1_mul (beta U : ℝ) (m n k : ℤ) :
    b1 beta U m (iv beta n) (iw beta m) * b1 beta U m (iv beta k) (iw beta m)
      = s1 beta U m * ((pp beta m n - cD beta U m) / nn beta U m n) * ((pp beta m k - cD beta U m) / nn beta U m k) := by
  rw [b1, b1, neg_iv_mul, neg_iv_mul, den_eq, den_eq, s1]
  linear_combination ((pp beta m n - cD beta U m) / nn beta U m n * ((pp beta m k - cD beta U m) / nn beta U m k))
    * csqrt_mul_self (U * (1 - cC beta U m))

theorem b2_mul {U : ℝ} (hU : 0 < U) (beta : ℝ) (m n k : ℤ) :
    b2 beta U m (iv beta n) (iw beta m) * b2 beta U m (iv beta k) (iw beta m)
      = s2 beta U m * (1 / nn beta U m n) * (1 / nn beta U m k) := by
  rw [b2, b2, den_eq, den_eq, s2]
  have h1 := csqrt_mul_self (U * U / (1 - cC beta U m) - iw beta m * iw beta m)
  have h2 : ((Real.sqrt (U * U * U * 0.25) : ℝ) : ℂ) * (Real.sqrt (U * U * U * 0.25) : ℝ) = U ^ 3 / 4 := by
    rw [← ofReal_mul, Real.mul_self_sqrt (by positivity)]
    push_cast
    norm_num
    ring
  have e : (U : ℂ) ^ 2 / (1 - cC beta U m) + (om beta m : ℂ) ^ 2
      = U * U / (1 - cC beta U m) - iw beta m * iw beta m := by
    rw [iw_mul]
    ring
  rw [e]
  obtain ⟨x, hx⟩ : ∃ x : ℂ, x = U * U / (1 - cC beta U m) - iw beta m * iw beta m := ⟨_, rfl⟩
  obtain ⟨y, hy⟩ : ∃ y : ℂ, y = ((Real.sqrt (U * U * U * 0.25) : ℝ) : ℂ) := ⟨_, rfl⟩
  obtain ⟨c, hc⟩ : ∃ c : ℂ, c = csqrt x := ⟨_, rfl⟩
  rw [← hx] at h1 ⊢
  rw [← hy] at h2 ⊢
  rw [← hc] at h1 ⊢
  rw [← h1, ← h2]
  linear_combination (y ^ 2 * c ^ 2 / (nn beta U m n : ℂ) / (nn beta U m k : ℂ)) * I_sq

theorem chi_eq {U : ℝ} (hU : 0 < U) (beta : ℝ) (m n k : ℤ) :
    chi beta U m n k
      = kr n k * (beta / 2 * (2 * pp beta m n - zB beta U + U ^ 2 / 4) / nn beta U m n)
        + kr n (-m - k - 1) * (beta / 2 * (-zB beta U - U ^ 2 / 4) / nn beta U m n)
        + s1 beta U m * ((pp beta m n - cD beta U m) / nn beta U m n) * ((pp beta m k - cD beta U m) / nn beta U m k)
        + s2 beta U m * (1 / nn beta U m n) * (1 / nn beta U m k) := by
  unfold chi
  dsimp only
  rw [b1_mul, b2_mul hU, a0_eq, b0_eq]
  ring

theorem va0_eq (beta U : ℝ) (m n : ℤ) :
    va0 beta U (iv beta n) (iw beta m)
      = beta / 2 * (-(U ^ 2 / 4)) * nn beta U m n / ((pp beta m n + U ^ 2 / 4) * pp beta m n) := by
  rw [va0, neg_iv_mul, cA_mul, den_eq, show (beta : ℂ) * 0.5 * cA U * cA U = beta * 0.5 * (cA U * cA U) by ring, cA_mul]
  rw [show (pp beta m n : ℂ) - -(U : ℂ) ^ 2 / 4 = pp beta m n + U ^ 2 / 4 by ring]
  congr 1
  ring

theorem vb0_eq (beta U : ℝ) (m n : ℤ) :
    vb0 beta U (iv beta n) (iw beta m)
      = beta / 2 * zB beta U * nn beta U m n / ((pp beta m n - zB beta U) * pp beta m n) := by
  rw [vb0, neg_iv_mul, cB_mul, den_eq, show (beta : ℂ) * 0.5 * cB beta U * cB beta U = beta * 0.5 * (cB beta U * cB beta U) by ring, cB_mul]
  congr 1
  ring

/-- the root in the vertex -/
def rt (beta U : ℝ) (m : ℤ) : ℂ := csqrt (4 * cB beta U * cB beta U - iw beta m * iw beta m)

theorem rt_sq (beta U : ℝ) (m : ℤ) : rt beta U m ^ 2 = (om beta m : ℂ) ^ 2 + 4 * zB beta U := by
  rw [sq, rt, csqrt_mul_self, mul_assoc, cB_mul, iw_mul]
  ring

/-- value of the sum over `1/(p - z)` -/
def sig (beta U : ℝ) (m : ℤ) : ℂ := beta / rt beta U m * tan (beta * (rt beta U m + om beta m) / 4)

theorem vDen_eq {beta : ℝ} (hb : 0 < beta) (U : ℝ) (m : ℤ) :
    vDen beta U (iw beta m) = U * sig beta U m / beta - 1 := by
  have hb' : (beta : ℂ) ≠ 0 := by exact_mod_cast hb.ne'
  rw [sig]
  unfold vDen
  dsimp only
  rw [I_mul_iw, ← rt]
  rw [show (beta : ℂ) * 0.25 * (rt beta U m - -(om beta m : ℂ)) = beta * (rt beta U m + om beta m) / 4 by
    norm_num; ring]
  field_simp

theorem vD_eq {beta U : ℝ} (hb : 0 < beta) (hU : 0 < U) (m : ℤ) :
    vD beta U (iw beta m)
      = -U * ((zB beta U + U ^ 2 / 4) ^ 2 + U ^ 2 / 4 * (om beta m : ℂ) ^ 2) / (U * sig beta U m / beta - 1) := by
  have hU' : (U : ℂ) ≠ 0 := by exact_mod_cast hU.ne'
  rw [vD, vDen_eq hb, iw_mul, mul_assoc 4, cB_mul]
  congr 1
  field_simp
  ring

theorem gamma_eq {beta U : ℝ} (hb : 0 < beta) (m n k : ℤ) :
    gamma beta U m n k
      = -1 / beta ^ 2 *
        (kr n k * (beta / 2 * zB beta U * nn beta U m n / ((pp beta m n - zB beta U) * pp beta m n)
            + beta / 2 * (-(U ^ 2 / 4)) * nn beta U m n / ((pp beta m n + U ^ 2 / 4) * pp beta m n))
          + kr n (-m - k - 1) * (beta / 2 * zB beta U * nn beta U m n / ((pp beta m n - zB beta U) * pp beta m n)
            - beta / 2 * (-(U ^ 2 / 4)) * nn beta U m n / ((pp beta m n + U ^ 2 / 4) * pp beta m n))
          + vD beta U (iw beta m) * (1 / (pp beta m n - zB beta U)) * (1 / (pp beta m k - zB beta U)) - U) := by
  have hb' : (beta : ℂ) ≠ 0 := by exact_mod_cast hb.ne'
  unfold gamma
  dsimp only
  rw [va0_eq, vb0_eq, neg_iv_mul, neg_iv_mul, cB_mul]
  ring

end Verif.HubbardAtom
