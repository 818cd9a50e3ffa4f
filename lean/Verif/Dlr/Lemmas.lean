import Verif.Dlr.Model
import Verif.Bubble.Routes
import Mathlib.Analysis.SpecialFunctions.Integrals.Basic

/-!
# Kernels of DLR meshes
-/

set_option linter.unusedSectionVars false

noncomputable section

namespace Verif.Dlr

open Complex Matrix MeasureTheory Verif.Parallel Verif.Fourier Verif.Lindhard Verif.Eliashberg Verif.Bubble

variable {ι : Type} [Fintype ι] [DecidableEq ι]

/-- weight of the kernel -/
def weight (beta x : ℝ) : ℝ := 1 - fermi (x * beta)

theorem weight_pos (beta x : ℝ) : 0 < weight beta x := by
  have := (C20_fermi_bounds (x * beta)).2
  unfold weight
  linarith

/-- `(1 - f) (1 + e^{-βx}) = 1` -/
theorem weight_mul (beta x : ℝ) : weight beta x * (1 + Real.exp (-x * beta)) = 1 := by
  unfold weight
  rw [C20_fermi, show -x * beta = -(x * beta) by ring, Real.exp_neg]
  have := Real.exp_pos (x * beta)
  field_simp
  ring

theorem weight_exp (beta x : ℝ) : weight beta x * Real.exp (-x * beta) = fermi (x * beta) := by
  have := weight_mul beta x
  unfold weight at *
  linarith

theorem freeTau_eq (beta t x : ℝ) : freeTau beta t x = -(weight beta x : ℂ) * exp (-(x : ℂ) * t) := by
  unfold freeTau weight
  push_cast
  ring

theorem freeTau_continuous (beta x : ℝ) : Continuous fun t : ℝ => freeTau beta t x := by
  unfold freeTau
  fun_prop

/-- a boson frequency equals a real number only if both vanish -/
theorem boson_ne (beta : ℝ) (hb : 0 < beta) (m : ℤ) (x : ℝ) (h : ¬(m = 0 ∧ x = 0)) :
    matsubara .boson beta m - (x : ℂ) ≠ 0 := by
  intro h0
  have e : matsubara .boson beta m - (x : ℂ) = ((-x : ℝ) : ℂ) + ((2 * m * Real.pi / beta : ℝ) : ℂ) * I := by
    simp only [matsubara]; push_cast; ring
  rw [e] at h0
  have hre := congrArg Complex.re h0
  have him := congrArg Complex.im h0
  simp only [add_re, ofReal_re, mul_re, I_re, mul_zero, ofReal_im, I_im, mul_one, sub_zero, add_zero, zero_re,
    add_im, mul_im, zero_add, zero_im] at hre him
  apply h
  refine ⟨?_, by linarith⟩
  rw [div_eq_zero_iff] at him
  rcases him with h1 | h1
  · rcases mul_eq_zero.1 h1 with h2 | h2
    · have : (m : ℝ) = 0 := by linarith
      exact_mod_cast this
    · exact absurd h2 Real.pi_ne_zero
  · exact absurd h1 hb.ne'

/-- the kernel in frequency is the transform of the kernel in time, for both statistics -/
theorem kernelFreq_integral (s : Stat) (beta : ℝ) (hb : 0 < beta) (x : ℝ) (m : ℤ) :
    ∫ t in (0 : ℝ)..beta, exp (matsubara s beta m * t) * freeTau beta t x = kernelFreq s beta x m := by
  have hw := weight_mul beta x
  have hwc : (weight beta x : ℂ) * (1 + exp (-(x : ℂ) * beta)) = 1 := by
    have := congrArg (fun r : ℝ => (r : ℂ)) hw
    push_cast at this
    exact this
  have h1 : ∀ t : ℝ, exp (matsubara s beta m * t) * freeTau beta t x
      = -(weight beta x : ℂ) * exp ((matsubara s beta m - x) * t) := by
    intro t
    rw [freeTau_eq, mul_left_comm, ← exp_add]
    congr 2
    ring
  simp only [h1]
  rw [intervalIntegral.integral_const_mul]
  have hgen : matsubara s beta m - (x : ℂ) ≠ 0 → ∫ t in (0 : ℝ)..beta, exp ((matsubara s beta m - x) * t)
      = (exp (matsubara s beta m * beta) * exp (-(x : ℂ) * beta) - 1) / (matsubara s beta m - x) := by
    intro hne
    rw [integral_exp_mul_complex hne, ← exp_add]
    simp only [ofReal_zero, mul_zero, exp_zero]
    congr 3
    ring
  cases s with
  | fermion =>
    have hne := fermion_ne beta hb m x
    rw [hgen hne, exp_matsubara .fermion beta hb m]
    simp only [kernelFreq]
    rw [← mul_div_assoc]
    congr 1
    linear_combination hwc
  | boson =>
    by_cases h0 : m = 0 ∧ x = 0
    · obtain ⟨rfl, rfl⟩ := h0
      have hwt : weight beta 0 = 1 / 2 := by
        have := weight_mul beta 0
        simp only [neg_zero, zero_mul, Real.exp_zero] at this
        linarith
      simp only [kernelFreq, matsubara, hwt]
      simp
      ring
    · have hne := boson_ne beta hb m x h0
      rw [hgen hne, exp_matsubara .boson beta hb m]
      simp only [kernelFreq, if_neg h0]
      have hwf := weight_exp beta x
      have hwfc : (weight beta x : ℂ) * exp (-(x : ℂ) * beta) = (fermi (x * beta) : ℂ) := by
        have := congrArg (fun r : ℝ => (r : ℂ)) hwf
        push_cast at this
        exact this
      rw [← mul_div_assoc]
      congr 1
      push_cast
      linear_combination hwc - 2 * hwfc

/-! ## Convolutions of kernels -/

/-- derivative of the kernel with respect to the pole, the convolution of the kernel with itself -/
def diagTau (beta t x : ℝ) : ℂ :=
  (weight beta x : ℂ) ^ 2 * exp (-(x : ℂ) * t) * (t - exp (-(x : ℂ) * beta) * (beta - t))

theorem conv_kernels (beta t x y : ℝ) (hxy : x ≠ y) :
    convolve beta (fun s => freeTau beta s x) (fun s => freeTau beta s y) t
      = (freeTau beta t x - freeTau beta t y) / (x - y) := by
  have hne : (x : ℂ) - y ≠ 0 := by
    rw [← ofReal_sub, ofReal_ne_zero]
    exact sub_ne_zero.2 hxy
  have hwx : (weight beta x : ℂ) * (1 + exp (-(x : ℂ) * beta)) = 1 := by
    have := congrArg (fun r : ℝ => (r : ℂ)) (weight_mul beta x)
    push_cast at this
    exact this
  have hwy : (weight beta y : ℂ) * (1 + exp (-(y : ℂ) * beta)) = 1 := by
    have := congrArg (fun r : ℝ => (r : ℂ)) (weight_mul beta y)
    push_cast at this
    exact this
  unfold convolve
  have e1 : ∀ s : ℝ, freeTau beta (t - s) x * freeTau beta s y
      = ((weight beta x : ℂ) * weight beta y * exp (-(x : ℂ) * t)) * exp (((x : ℂ) - y) * s) := by
    intro s
    rw [freeTau_eq, freeTau_eq, mul_assoc _ (exp (-(x : ℂ) * t)), ← exp_add]
    rw [mul_mul_mul_comm, ← exp_add]
    push_cast
    rw [neg_mul_neg]
    congr 2
    ring
  have e2 : ∀ s : ℝ, freeTau beta (t - s + beta) x * freeTau beta s y
      = ((weight beta x : ℂ) * weight beta y * exp (-(x : ℂ) * (t + beta))) * exp (((x : ℂ) - y) * s) := by
    intro s
    rw [freeTau_eq, freeTau_eq, mul_assoc _ (exp (-(x : ℂ) * (t + beta))), ← exp_add]
    rw [mul_mul_mul_comm, ← exp_add]
    push_cast
    rw [neg_mul_neg]
    congr 2
    ring
  simp only [e1, e2]
  rw [intervalIntegral.integral_const_mul, intervalIntegral.integral_const_mul, integral_exp_mul_complex hne,
    integral_exp_mul_complex hne, freeTau_eq, freeTau_eq]
  simp only [ofReal_zero, mul_zero, exp_zero]
  rw [← mul_div_assoc, ← mul_div_assoc, ← sub_div]
  congr 1
  have a1 : exp (((x : ℂ) - y) * t) * exp (-(x : ℂ) * t) = exp (-(y : ℂ) * t) := by rw [← exp_add]; congr 1; ring
  have a2 : exp (((x : ℂ) - y) * t) * exp (-(x : ℂ) * (t + beta)) = exp (-(y : ℂ) * t) * exp (-(x : ℂ) * beta) := by
    rw [← exp_add, ← exp_add]; congr 1; ring
  have a3 : exp (((x : ℂ) - y) * beta) * exp (-(x : ℂ) * (t + beta)) = exp (-(x : ℂ) * t) * exp (-(y : ℂ) * beta) := by
    rw [← exp_add, ← exp_add]; congr 1; ring
  linear_combination (weight beta x * weight beta y : ℂ) * a1 + (weight beta x * weight beta y : ℂ) * a2
    - (weight beta x * weight beta y : ℂ) * a3 + (weight beta y : ℂ) * exp (-(y : ℂ) * t) * hwx
    - (weight beta x : ℂ) * exp (-(x : ℂ) * t) * hwy

theorem conv_diag (beta t x : ℝ) :
    convolve beta (fun s => freeTau beta s x) (fun s => freeTau beta s x) t = diagTau beta t x := by
  unfold convolve diagTau
  have e1 : ∀ s : ℝ, freeTau beta (t - s) x * freeTau beta s x
      = (weight beta x : ℂ) ^ 2 * exp (-(x : ℂ) * t) := by
    intro s
    rw [freeTau_eq, freeTau_eq, mul_mul_mul_comm, ← exp_add]
    push_cast
    rw [neg_mul_neg, ← sq]
    congr 2
    ring
  have e2 : ∀ s : ℝ, freeTau beta (t - s + beta) x * freeTau beta s x
      = (weight beta x : ℂ) ^ 2 * (exp (-(x : ℂ) * t) * exp (-(x : ℂ) * beta)) := by
    intro s
    rw [freeTau_eq, freeTau_eq, mul_mul_mul_comm, ← exp_add, ← exp_add]
    push_cast
    rw [neg_mul_neg, ← sq]
    congr 2
    ring
  simp only [e1, e2, intervalIntegral.integral_const, real_smul]
  push_cast
  ring

/-! ## Coefficients -/

variable (M : Mesh ι)

theorem kTau_mulVec (c : ι → ℂ) (j : ι) : (M.kTau *ᵥ c) j = M.evalTau c (M.tau j) := by
  simp only [Matrix.mulVec, dotProduct, Mesh.kTau, Matrix.of_apply, Mesh.evalTau]
  exact Finset.sum_congr rfl fun l _ => mul_comm _ _

theorem kFreq_mulVec (s : Stat) (c : ι → ℂ) (j : ι) : (M.kFreq s *ᵥ c) j = M.evalFreq s c (M.nu s j) := by
  simp only [Matrix.mulVec, dotProduct, Mesh.kFreq, Matrix.of_apply, Mesh.evalFreq]
  exact Finset.sum_congr rfl fun l _ => mul_comm _ _

theorem fitTau_eval (h : IsUnit M.kTau.det) (c : ι → ℂ) : M.fitTau (fun j => M.evalTau c (M.tau j)) = c := by
  unfold Mesh.fitTau
  rw [show (fun j => M.evalTau c (M.tau j)) = M.kTau *ᵥ c from funext fun j => (kTau_mulVec M c j).symm,
    Matrix.mulVec_mulVec, Matrix.nonsing_inv_mul _ h, Matrix.one_mulVec]

theorem fitFreq_eval (s : Stat) (h : IsUnit (M.kFreq s).det) (c : ι → ℂ) :
    M.fitFreq s (fun j => M.evalFreq s c (M.nu s j)) = c := by
  unfold Mesh.fitFreq
  rw [show (fun j => M.evalFreq s c (M.nu s j)) = M.kFreq s *ᵥ c from funext fun j => (kFreq_mulVec M s c j).symm,
    Matrix.mulVec_mulVec, Matrix.nonsing_inv_mul _ h, Matrix.one_mulVec]

theorem evalTau_fit (h : IsUnit M.kTau.det) (y : ι → ℂ) (j : ι) : M.evalTau (M.fitTau y) (M.tau j) = y j := by
  rw [← kTau_mulVec, Mesh.fitTau, Matrix.mulVec_mulVec, Matrix.mul_nonsing_inv _ h, Matrix.one_mulVec]

theorem evalFreq_fit (s : Stat) (h : IsUnit (M.kFreq s).det) (y : ι → ℂ) (j : ι) :
    M.evalFreq s (M.fitFreq s y) (M.nu s j) = y j := by
  rw [← kFreq_mulVec, Mesh.fitFreq, Matrix.mulVec_mulVec, Matrix.mul_nonsing_inv _ h, Matrix.one_mulVec]

/-- the represented function of frequency is the transform of the represented function of time -/
theorem evalFreq_integral (hb : 0 < M.beta) (s : Stat) (c : ι → ℂ) (m : ℤ) :
    ∫ t in (0 : ℝ)..M.beta, exp (matsubara s M.beta m * t) * M.evalTau c t = M.evalFreq s c m := by
  simp only [Mesh.evalTau, Mesh.evalFreq, Finset.mul_sum]
  rw [intervalIntegral.integral_finsetSum]
  · refine Finset.sum_congr rfl fun l _ => ?_
    rw [← kernelFreq_integral s M.beta hb, ← intervalIntegral.integral_const_mul]
    refine intervalIntegral.integral_congr fun t _ => ?_
    ring
  · intro l _
    have := freeTau_continuous M.beta (M.omega l)
    exact Continuous.intervalIntegrable (by fun_prop) 0 M.beta

end Verif.Dlr
