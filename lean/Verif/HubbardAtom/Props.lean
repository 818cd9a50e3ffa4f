import Verif.HubbardAtom.Defect
import Mathlib.Topology.Algebra.InfiniteSum.Ring
import Mathlib.Analysis.Normed.Ring.InfiniteSum
import Mathlib.Analysis.Normed.Module.FiniteDimension
import Mathlib.Analysis.Complex.ExponentialBounds
import Mathlib.Analysis.Real.Pi.Bounds

/-!
# C71 and C81: the Hubbard atom solves the Bethe-Salpeter equation and obeys the sum rules
-/

noncomputable section

namespace Verif.HubbardAtom

open Complex

/-! ### C71 -/

theorem chi_symm (beta : ℝ) {U : ℝ} (hU : 0 < U) (m n k : ℤ) : chi beta U m n k = chi beta U m k n := by
  have h1 : kr n k * ca beta U m n = kr k n * ca beta U m k := by
    by_cases h : n = k
    · rw [h]
    · simp [kr, h, Ne.symm h]
  have h2 : kr n (-m - k - 1) * cb beta U m n = kr k (-m - n - 1) * cb beta U m k := by
    by_cases h : n = -m - k - 1
    · have h' : k = -m - n - 1 := by omega
      rw [kr, kr, if_pos h, if_pos h']
      conv_lhs => rw [h, cb, nn_refl]
      rw [cb]
    · have h' : ¬k = -m - n - 1 := by omega
      simp [kr, h, h']
  rw [chi_split hU, chi_split hU, h1, h2]
  ring

theorem gamma_symm {beta : ℝ} (hb : 0 < beta) (U : ℝ) (m n k : ℤ) : gamma beta U m n k = gamma beta U m k n := by
  have h1 : kr n k * (ge beta U m n + go beta U m n) = kr k n * (ge beta U m k + go beta U m k) := by
    by_cases h : n = k
    · rw [h]
    · simp [kr, h, Ne.symm h]
  have h2 : kr n (-m - k - 1) * (ge beta U m n - go beta U m n) = kr k (-m - n - 1) * (ge beta U m k - go beta U m k) := by
    by_cases h : n = -m - k - 1
    · have h' : k = -m - n - 1 := by omega
      rw [kr, kr, if_pos h, if_pos h']
      conv_lhs => rw [h, ge_refl, go_refl]
    · have h' : ¬k = -m - n - 1 := by omega
      simp [kr, h, h']
  rw [gamma_split hb, gamma_split hb, h1, h2]
  ring

/-- At temperatures with `e^(βU/2) ≥ 3` the analytic vertex, susceptibility and bubble of the Hubbard atom solve the
Bethe-Salpeter equation, as an equation of infinite matrices, at every bosonic frequency at which the closed formulas
have no vanishing denominator. -/
theorem C71_bethe_salpeter_partial {beta U : ℝ} (hb : 0 < beta) (hU : 0 < U) (h3 : 3 ≤ Real.exp (beta * U / 2))
    (m : ℤ) (hr : Regular beta U m) : BetheSalpeter (chi0 beta U m) (chi beta U m) (gamma beta U m) := by
  have hmain : ∀ n k, HasSum (fun j => chi beta U m n j * gamma beta U m j k * chi0 beta U m k k)
      (chi beta U m n k - chi0 beta U m n k) := by
    intro n k
    by_cases hm : m = 0
    · subst hm
      have := bse_defect hb hU 0 n k hr.hz hr.ha (sums hb hU hr (vN_zero hU h3))
      rwa [defect_zero hb hU hr h3, mul_zero, sub_zero] at this
    · have := bse_defect hb hU m n k hr.hz hr.ha (sums hb hU hr (vN_ne hb hU hm))
      rwa [defect_ne hb hU hm hr h3, mul_zero, sub_zero] at this
  have hN : vN beta U m ≠ 0 := by
    by_cases hm : m = 0
    · subst hm
      exact vN_zero hU h3
    · exact vN_ne hb hU hm
  have hS := fun n k => hasSum_chi_gamma hb hU m n k hr.hz (sums hb hU hr hN)
  choose X hX using fun n k => (⟨_, hS n k⟩ : ∃ x, HasSum (fun j => chi beta U m n j * gamma beta U m j k) x)
  have hval : ∀ n k, X n k * chi0 beta U m k k = chi beta U m n k - chi0 beta U m n k := fun n k =>
    ((hX n k).mul_right _).unique (hmain n k)
  have hoff : ∀ j k, j ≠ k → chi0 beta U m j k = 0 := fun j k h => by
    rw [chi0_eq hb hU]
    simp [kr, h]
  constructor
  · refine ⟨X, hX, fun n k => ?_⟩
    refine (hasSum_single k fun j hj => ?_).congr_val (hval n k)
    rw [hoff _ _ hj, mul_zero]
  · refine ⟨fun n k => X k n, fun n k => (hX k n).congr_fun fun j => ?_, fun n k => ?_⟩
    · rw [gamma_symm hb U m n j, chi_symm beta hU m j k, mul_comm]
    · refine (hasSum_single n fun j hj => ?_).congr_val ?_
      · rw [hoff _ _ hj.symm, zero_mul]
      · rw [mul_comm, hval k n]
        have e : chi0 beta U m k n = chi0 beta U m n k := by
          by_cases h : n = k
          · rw [h]
          · rw [hoff _ _ h, hoff _ _ (Ne.symm h)]
        rw [chi_symm beta hU, e]
        rfl

/-- two coefficients of the defect that do not depend on `B` -/
theorem coefficients {beta U : ℝ} (hb : 0 < beta) (hU : 0 < U) (m : ℤ) :
    s1 beta U m * (1 - U * (vP0 beta U m - cD beta U m * vL0 beta U m) / beta) = U
    ∧ s2 beta U m * (U * vL0 beta U m / beta) = U * (U ^ 2 / 4 * (1 - 2 * th beta U)) - U * cD beta U m := by
  have hb' : (beta : ℂ) ≠ 0 := by exact_mod_cast hb.ne'
  have hU' : (U : ℂ) ≠ 0 := by exact_mod_cast hU.ne'
  by_cases hm : m = 0
  · subst hm
    obtain ⟨t, ht⟩ : ∃ t : ℂ, t = th beta U := ⟨_, rfl⟩
    obtain ⟨C, hC⟩ : ∃ C : ℂ, C = cC beta U 0 := ⟨_, rfl⟩
    have hCe : (beta : ℂ) * U * (1 + t) = -4 * C := by
      rw [hC, cC_zero, ht]
      push_cast
      ring
    have hC1 : 1 - C ≠ 0 := by
      have h1 := th_pos hb hU
      have : 0 < 1 - -(beta * U / 4 * (1 + th beta U)) := by
        have : 0 < beta * U / 4 * (1 + th beta U) := by positivity
        linarith
      rw [hC, cC_zero]
      exact_mod_cast this.ne'
    have hl : vL0 beta U 0 = 2 * beta / U ^ 3 * (t + C * (1 - t)) := by
      rw [vL0, if_pos rfl, ← ht]
      field_simp
      linear_combination (-(1 - t)) * hCe
    have hP0 : vP0 beta U 0 = beta / U * t - U ^ 2 / 4 * vL0 beta U 0 := by rw [vP0, if_pos rfl, ht]
    have hD : cD beta U 0 = U ^ 2 / 4 * (1 + C) / (1 - C) := by
      rw [cD, ← hC]
      ring
    have hs1 : s1 beta U 0 = U * (1 - C) := by rw [s1, hC]
    have hom : (om beta 0 : ℂ) = 0 := by rw [om]; simp
    have hs2 : s2 beta U 0 = -(U ^ 5 / 4) / (1 - C) := by
      rw [s2, ← hC, hom]
      ring
    rw [hs1, hs2, hP0, hl, hD, ← ht]
    constructor
    · field_simp
      ring
    · field_simp
      ring
  · have hW : (om beta m : ℂ) ^ 2 + U ^ 2 ≠ 0 := by
      have : om beta m ^ 2 + U ^ 2 ≠ 0 := by positivity
      exact_mod_cast this
    have hL0 : vL0 beta U m = 2 * (beta / U * th beta U) / ((om beta m : ℂ) ^ 2 + U ^ 2) := by rw [vL0, if_neg hm]
    have hP0 : vP0 beta U m = U ^ 2 / 4 * vL0 beta U m := by rw [vP0, if_neg hm]
    have hD : cD beta U m = U ^ 2 / 4 := by
      rw [cD, cC_ne _ _ hm]
      ring
    have hs1 : s1 beta U m = U := by rw [s1, cC_ne _ _ hm]; ring
    have hs2 : s2 beta U m = -(U ^ 3 / 4) * ((om beta m : ℂ) ^ 2 + U ^ 2) := by rw [s2, cC_ne _ _ hm]; ring
    rw [hs1, hs2, hP0, hD]
    constructor
    · ring
    · rw [hL0]
      field_simp
      ring

/-- `N(z)` does not vanish -/
theorem vN_bad {beta U : ℝ} (hb : 0 < beta) (hU : 0 < U) (h3 : Real.exp (beta * U / 2) < 3) (m : ℤ) :
    vN beta U m ≠ 0 := by
  have h : 0 < (zB beta U + U ^ 2 / 4) ^ 2 + U ^ 2 / 4 * om beta m ^ 2 := by
    have h1 := th_pos hb hU
    have : 0 < zB beta U + U ^ 2 / 4 := by
      rw [zB_bad h3]
      nlinarith [mul_pos (sq_pos_of_pos hU) h1]
    positivity
  rw [vN]
  exact_mod_cast h.ne'

/-- At higher temperatures, `e^(βU/2) < 3`, the functions of the code do not solve the Bethe-Salpeter equation at any
bosonic frequency: the absolute value in `B` makes its square negative there, where it should be positive. -/
theorem C71_high_temperature_violated {beta U : ℝ} (hb : 0 < beta) (hU : 0 < U) (h3 : Real.exp (beta * U / 2) < 3)
    (m : ℤ) (hr : Regular beta U m) :
    ¬BetheSalpeter (chi0 beta U m) (chi beta U m) (gamma beta U m) := by
  rintro ⟨⟨X, hX, hX0⟩, -⟩
  have hb' : (beta : ℂ) ≠ 0 := by exact_mod_cast hb.ne'
  have hU' : (U : ℂ) ≠ 0 := by exact_mod_cast hU.ne'
  have hoff : ∀ j k, j ≠ k → chi0 beta U m j k = 0 := fun j k h => by
    rw [chi0_eq hb hU]
    simp [kr, h]
  have hdef : ∀ n k, defect beta U m (vL0 beta U m) (vP0 beta U m) (vL1 beta U m) (pp beta m n) (pp beta m k) = 0 := by
    intro n k
    have h1 := bse_defect hb hU m n k hr.hz hr.ha (sums hb hU hr (vN_bad hb hU h3 m))
    have h2 := (hX n k).mul_right (chi0 beta U m k k)
    have h4 : HasSum (fun j => X n j * chi0 beta U m j k) (X n k * chi0 beta U m k k) :=
      hasSum_single k fun j hj => by rw [hoff _ _ hj, mul_zero]
    have h5 := h4.unique (hX0 n k)
    have h6 := h1.unique h2
    rw [h5] at h6
    have h7 : (pp beta m k : ℂ) / (nn beta U m n * nn beta U m k * (pp beta m k - zB beta U))
        * defect beta U m (vL0 beta U m) (vP0 beta U m) (vL1 beta U m) (pp beta m n) (pp beta m k) = 0 := by
      have : (chi beta U m - chi0 beta U m) n k = chi beta U m n k - chi0 beta U m n k := rfl
      rw [this] at h6
      linear_combination -h6
    refine (mul_eq_zero.mp h7).resolve_left (div_ne_zero ?_ (mul_ne_zero (mul_ne_zero ?_ ?_) ?_))
    · exact_mod_cast pp_ne_zero hb m k
    · exact_mod_cast (nn_pos hU beta m n).ne'
    · exact_mod_cast (nn_pos hU beta m k).ne'
    · exact sub_ne_zero.mpr (hr.hz k)
  -- two frequencies with different products
  obtain ⟨k, hk⟩ : ∃ k : ℤ, k * (k + 1 + m) ≠ 0 := by
    by_cases h : m = -2
    · exact ⟨2, by rw [h]; norm_num⟩
    · exact ⟨1, by rw [one_mul]; omega⟩
  have hpk : (pp beta m k : ℂ) - pp beta m 0 ≠ 0 := by
    have hpi : (Real.pi : ℂ) ≠ 0 := by exact_mod_cast Real.pi_ne_zero
    have e : (pp beta m k : ℂ) - pp beta m 0 = 4 * (Real.pi / beta) ^ 2 * ((k * (k + 1 + m) : ℤ) : ℂ) := by
      rw [pp, pp, nu, nu, om]
      push_cast
      field_simp
      ring
    rw [e]
    exact mul_ne_zero (mul_ne_zero (by norm_num) (pow_ne_zero _ (div_ne_zero hpi hb'))) (by exact_mod_cast hk)
  obtain ⟨c1, c2⟩ := coefficients hb hU m
  have hz : (zB beta U : ℂ) = -(U ^ 2 / 4 * (1 - 2 * th beta U)) := by rw [zB_bad h3]; push_cast; ring
  have hdiff : ((pp beta m k : ℂ) - pp beta m 0) * (-(U ^ 3 / 2) * (1 - 2 * th beta U)) = 0 := by
    have h1 := hdef 0 k
    have h2 := hdef 0 0
    unfold defect at h1 h2
    dsimp only at h1 h2
    linear_combination h1 - h2 + ((pp beta m k : ℂ) - pp beta m 0) * c2
      - ((pp beta m k : ℂ) - pp beta m 0) * (pp beta m 0 - cD beta U m) * c1
      - U * ((pp beta m k : ℂ) - pp beta m 0) * hz
  rcases mul_eq_zero.mp hdiff with h | h
  · exact hpk h
  · have h1 := th_half h3
    have h2 : -(U ^ 3 / 2) * (1 - 2 * th beta U) = 0 := by exact_mod_cast h
    have h4 : 0 < U ^ 3 / 2 * (1 - 2 * th beta U) := by
      have : 0 < 1 - 2 * th beta U := by linarith
      positivity
    linarith

/-- the hypotheses of `C71_bethe_salpeter_partial` at `U = 2`, `e^β = 13/3` and zero bosonic frequency -/
theorem regular_example : 3 ≤ Real.exp (Real.log (13 / 3) * 2 / 2) ∧ Regular (Real.log (13 / 3)) 2 0 := by
  obtain ⟨beta, hbeta⟩ : ∃ beta : ℝ, beta = Real.log (13 / 3) := ⟨_, rfl⟩
  have hb : 0 < beta := by rw [hbeta]; exact Real.log_pos (by norm_num)
  have he : Real.exp (beta * 2 / 2) = 13 / 3 := by
    rw [mul_div_assoc, div_self two_ne_zero, mul_one, hbeta, Real.exp_log (by norm_num)]
  rw [← hbeta]
  have h3 : 3 ≤ Real.exp (beta * 2 / 2) := by rw [he]; norm_num
  have hz : zB beta 2 = -(1 / 4) := by
    rw [zB, he, abs_of_nonpos (by norm_num)]
    norm_num
  have hp : ∀ n, 0 < pp beta 0 n := fun n => by
    rw [pp, om]
    have := nu_ne_zero hb n
    simp only [Int.cast_zero, mul_zero, zero_mul, zero_div, add_zero]
    exact mul_self_pos.mpr this
  have hrt : rt beta 2 0 ^ 2 = -1 := by
    rw [rt_sq, hz, om]
    push_cast
    norm_num
  have hrt0 : rt beta 2 0 ≠ 0 := fun h => by
    rw [h] at hrt
    norm_num at hrt
  refine ⟨h3, ⟨fun n => ?_, fun n => ?_, hrt0, ?_⟩⟩
  · rw [neg_iv_mul, cA_mul]
    have : pp beta 0 n + 1 ≠ 0 := by linarith [hp n]
    intro h
    apply this
    have h' : ((pp beta 0 n + 1 : ℝ) : ℂ) = 0 := by
      push_cast
      push_cast at h
      linear_combination h
    exact_mod_cast h'
  · rw [neg_iv_mul, cB_mul, hz]
    have : pp beta 0 n - -(1 / 4) ≠ 0 := by linarith [hp n]
    exact_mod_cast this
  · rw [vDen_eq hb]
    have hs : sig beta 2 0 = beta * th beta 1 := by
      rw [sig, show (om beta 0 : ℂ) = 0 by rw [om]; simp, add_zero]
      have ht : tan (beta * I / 4) = (th beta 1 : ℂ) * I := by
        rw [th, ← tan_I_mul_real]
        congr 1
        push_cast
        ring
      have : (rt beta 2 0 - I) * (rt beta 2 0 + I) = 0 := by linear_combination hrt - I_sq
      rcases mul_eq_zero.mp this with h | h
      · rw [sub_eq_zero.mp h, ht]
        have := I_ne_zero
        field_simp
      · rw [eq_neg_of_add_eq_zero_left h, show (beta : ℂ) * -I / 4 = -(beta * I / 4) by ring, tan_neg, ht]
        have := I_ne_zero
        field_simp
    have hb' : (beta : ℂ) ≠ 0 := by exact_mod_cast hb.ne'
    have hth : th beta 1 < 1 / 2 := by
      apply th_half
      have h1 : Real.exp (beta * 1 / 2) * Real.exp (beta * 1 / 2) = 13 / 3 := by
        rw [← Real.exp_add, ← he]
        congr 1
        ring
      nlinarith [Real.exp_pos (beta * 1 / 2)]
    rw [hs]
    intro h
    have h' : 2 * th beta 1 - 1 = 0 := by
      have : (((2 * th beta 1 - 1 : ℝ)) : ℂ) = 0 := by
        rw [← h]
        push_cast
        field_simp
      exact_mod_cast this
    linarith

example : BetheSalpeter (chi0 (Real.log (13 / 3)) 2 0) (chi (Real.log (13 / 3)) 2 0) (gamma (Real.log (13 / 3)) 2 0) :=
  C71_bethe_salpeter_partial (Real.log_pos (by norm_num)) two_pos regular_example.1 0 regular_example.2

/-- the hypotheses of `C71_high_temperature_violated` at `U = 2`, `e^β = 2` and the first bosonic frequency -/
theorem regular_example_bad : Real.exp (Real.log 2 * 2 / 2) < 3 ∧ Regular (Real.log 2) 2 1 := by
  obtain ⟨beta, hbeta⟩ : ∃ beta : ℝ, beta = Real.log 2 := ⟨_, rfl⟩
  have hb : 0 < beta := by rw [hbeta]; exact Real.log_pos (by norm_num)
  have hb1 : beta < 1 := by rw [hbeta]; linarith [Real.log_two_lt_d9]
  have he : Real.exp (beta * 2 / 2) = 2 := by
    rw [mul_div_assoc, div_self two_ne_zero, mul_one, hbeta, Real.exp_log (by norm_num)]
  rw [← hbeta]
  have h3 : Real.exp (beta * 2 / 2) < 3 := by rw [he]; norm_num
  have hz : zB beta 2 = -(1 / 3) := by
    rw [zB, he, abs_of_pos (by norm_num)]
    norm_num
  have hpib : 3 < Real.pi / beta := by
    rw [lt_div_iff₀ hb]
    nlinarith [Real.pi_gt_three]
  have hp : ∀ n, pp beta 1 n < -9 ∨ 0 < pp beta 1 n := fun n => by
    have e : pp beta 1 n = (Real.pi / beta) ^ 2 * (((2 * n + 1) * (2 * n + 3) : ℤ) : ℝ) := by
      rw [pp, nu, om]
      push_cast
      field_simp
      ring
    rw [e]
    by_cases hn : n = -1
    · left
      rw [hn]
      norm_num
      nlinarith
    · right
      have h1 : 0 < (2 * n + 1) * (2 * n + 3) := by
        rcases lt_or_gt_of_ne hn with h | h
        · nlinarith
        · nlinarith
      have : (0 : ℝ) < (((2 * n + 1) * (2 * n + 3) : ℤ) : ℝ) := by exact_mod_cast h1
      positivity
  have hom : om beta 1 = 2 * (Real.pi / beta) := by
    rw [om]
    push_cast
    ring
  obtain ⟨r, hr⟩ : ∃ r : ℝ, r = Real.sqrt (om beta 1 ^ 2 - 4 / 3) := ⟨_, rfl⟩
  have hx : 0 < om beta 1 ^ 2 - 4 / 3 := by
    rw [hom]
    nlinarith
  have hr0 : 0 < r := by rw [hr]; exact Real.sqrt_pos.mpr hx
  have hrs : r ^ 2 = om beta 1 ^ 2 - 4 / 3 := by rw [hr, Real.sq_sqrt hx.le]
  have hro : r < om beta 1 := by
    have : 0 < om beta 1 := by rw [hom]; linarith
    nlinarith
  have hrt : rt beta 2 1 = r := by
    rw [rt, mul_assoc, cB_mul, iw_mul, hz, csqrt]
    have : (4 : ℂ) * ((-(1 / 3) : ℝ) : ℂ) - -(om beta 1 : ℂ) ^ 2 = ((om beta 1 ^ 2 - 4 / 3 : ℝ) : ℂ) := by
      push_cast
      ring
    rw [this, hr, Real.sqrt_eq_rpow, Complex.ofReal_cpow hx.le]
    norm_num
  have hrt0 : rt beta 2 1 ≠ 0 := by rw [hrt]; exact_mod_cast hr0.ne'
  refine ⟨h3, ⟨fun n => ?_, fun n => ?_, hrt0, ?_⟩⟩
  · rw [neg_iv_mul, cA_mul]
    have : pp beta 1 n + 1 ≠ 0 := by rcases hp n with h | h <;> linarith
    intro h
    apply this
    have h' : ((pp beta 1 n + 1 : ℝ) : ℂ) = 0 := by
      push_cast
      push_cast at h
      linear_combination h
    exact_mod_cast h'
  · rw [neg_iv_mul, cB_mul, hz]
    have : pp beta 1 n - -(1 / 3) ≠ 0 := by rcases hp n with h | h <;> linarith
    exact_mod_cast this
  · rw [vDen_eq hb, sig, hrt]
    have hbo : beta * om beta 1 = 2 * Real.pi := by rw [hom]; field_simp
    have htan : Real.tan (beta * (r + om beta 1) / 4) < 0 := by
      rw [← Real.tan_periodic.sub_eq]
      apply Real.tan_neg_of_neg_of_pi_div_two_lt
      · nlinarith
      · nlinarith
    have hb' : (beta : ℂ) ≠ 0 := by exact_mod_cast hb.ne'
    have hr' : (r : ℂ) ≠ 0 := by exact_mod_cast hr0.ne'
    intro h
    have h' : 2 * Real.tan (beta * (r + om beta 1) / 4) / r - 1 = 0 := by
      have : ((2 * Real.tan (beta * (r + om beta 1) / 4) / r - 1 : ℝ) : ℂ) = 0 := by
        rw [← h]
        push_cast
        field_simp
      exact_mod_cast this
    have : 2 * Real.tan (beta * (r + om beta 1) / 4) / r < 0 := div_neg_of_neg_of_pos (by linarith) hr0
    linarith

example : ¬BetheSalpeter (chi0 (Real.log 2) 2 1) (chi (Real.log 2) 2 1) (gamma (Real.log 2) 2 1) :=
  C71_high_temperature_violated (Real.log_pos (by norm_num)) two_pos regular_example_bad.1 1
    regular_example_bad.2

/-! ### C81 -/

theorem hasSum_diag {f : ℤ → ℂ} {a : ℂ} (h : HasSum f a) (e : ℤ ≃ ℤ) :
    HasSum (fun x : ℤ × ℤ => kr x.1 (e x.2) * f x.1) a := by
  have hi : Function.Injective fun n : ℤ => ((n, e.symm n) : ℤ × ℤ) := fun a b h => congrArg Prod.fst h
  rw [← hi.hasSum_iff]
  · refine h.congr_fun fun n => ?_
    simp [kr]
  · rintro ⟨n, k⟩ hx
    have : n ≠ e k := by
      rintro rfl
      exact hx ⟨e k, by simp⟩
    simp [kr, this]

theorem hasSum_mul_prod {f : ℤ → ℂ} {g : ℤ → ℂ} {a b : ℂ} (hf : HasSum f a) (hg : HasSum g b) :
    HasSum (fun x : ℤ × ℤ => f x.1 * g x.2) (a * b) :=
  hf.mul hg (summable_mul_of_summable_norm hf.summable.norm hg.summable.norm)

/-- the double frequency sum of the susceptibility -/
theorem hasSum_chi {beta U : ℝ} (hb : 0 < beta) (hU : 0 < U) (m : ℤ) :
    HasSum (fun x : ℤ × ℤ => chi beta U m x.1 x.2)
      (beta * (vP0 beta U m - zB beta U * vL0 beta U m)
        + s1 beta U m * (vP0 beta U m - cD beta U m * vL0 beta U m) ^ 2 + s2 beta U m * vL0 beta U m ^ 2) := by
  have h0 := hasSum_L0 hb hU m
  have h1 := hasSum_P0 hb hU m
  have ha : HasSum (ca beta U m) (beta * vP0 beta U m + beta / 2 * (-zB beta U + U ^ 2 / 4) * vL0 beta U m) :=
    ((h1.mul_left (beta : ℂ)).add (h0.mul_left (beta / 2 * (-zB beta U + U ^ 2 / 4) : ℂ))).congr_fun fun n => by
      rw [ca]; ring
  have hb2 : HasSum (cb beta U m) (beta / 2 * (-zB beta U - U ^ 2 / 4) * vL0 beta U m) :=
    (h0.mul_left (beta / 2 * (-zB beta U - U ^ 2 / 4) : ℂ)).congr_fun fun n => by rw [cb]; ring
  have hq1 := hasSum_q1 h0 h1
  have hq2 : HasSum (q2 beta U m) (vL0 beta U m) := h0
  refine ((((hasSum_diag ha (Equiv.refl ℤ)).add (hasSum_diag hb2 (refl m))).add
    ((hasSum_mul_prod hq1 hq1).mul_left (s1 beta U m))).add
    ((hasSum_mul_prod hq2 hq2).mul_left (s2 beta U m))).congr_val ?_ |>.congr_fun fun x => ?_
  · ring
  · rw [chi_split hU]
    simp only [Equiv.refl_apply]
    rw [show (refl m) x.2 = -m - x.2 - 1 from rfl]
    ring

/-- double sum: the exact value plus an error proportional to that of the square of `B` -/
theorem hasSum_chi_eq {beta U : ℝ} (hb : 0 < beta) (hU : 0 < U) (m : ℤ) :
    HasSum (fun x : ℤ × ℤ => 1 / (beta : ℂ) ^ 2 * chi beta U m x.1 x.2)
      ((if m = 0 then (chiStatic beta U : ℂ) else 0)
        + vL0 beta U m / beta * (U ^ 2 / 4 * (1 - 2 * th beta U) - zB beta U)) := by
  refine ((hasSum_chi hb hU m).mul_left _).congr_val ?_
  have hb' : (beta : ℂ) ≠ 0 := by exact_mod_cast hb.ne'
  have hU' : (U : ℂ) ≠ 0 := by exact_mod_cast hU.ne'
  obtain ⟨c1, c2⟩ := coefficients hb hU m
  obtain ⟨J, hJ⟩ : ∃ J : ℂ, J = vP0 beta U m - cD beta U m * vL0 beta U m := ⟨_, rfl⟩
  have hP : vP0 beta U m = J + cD beta U m * vL0 beta U m := by rw [hJ]; ring
  have hst : (if m = 0 then (chiStatic beta U : ℂ) else 0) = s1 beta U m * J / beta / U := by
    rw [← hJ] at c1
    have c1' : s1 beta U m * J / beta = (s1 beta U m - U) / U := by
      field_simp
      field_simp at c1
      linear_combination -c1
    rw [c1', s1]
    split_ifs with hm
    · subst hm
      have : chiStatic beta U = beta / 4 * (1 + th beta U) := by
        unfold chiStatic
        dsimp only
        rw [th_exp, show -beta * 0.5 * U = -(beta * U / 2) by ring, Real.exp_neg]
        have := Real.exp_pos (beta * U / 2)
        field_simp
        ring
      rw [this, cC_zero]
      push_cast
      field_simp
      ring
    · rw [cC_ne _ _ hm]
      simp
  have k1 : s1 beta U m * J ^ 2 = beta * (s1 beta U m * J / U - J) := by
    rw [← hJ] at c1
    field_simp at c1 ⊢
    linear_combination (-J) * c1
  have k2 : s2 beta U m * vL0 beta U m = beta * (U ^ 2 / 4 * (1 - 2 * th beta U) - cD beta U m) := by
    field_simp at c2 ⊢
    linear_combination c2
  rw [hst, hP, add_sub_cancel_right, k1, show s2 beta U m * vL0 beta U m ^ 2
    = s2 beta U m * vL0 beta U m * vL0 beta U m by ring, k2]
  field_simp
  ring

/-- Spin conservation: at temperatures with `e^(βU/2) ≥ 3` the magnetic susceptibility summed over both fermionic
frequencies vanishes at every nonzero bosonic frequency, and is the static susceptibility `chi_m_static` returned beside
it at zero bosonic frequency. -/
theorem C81_sum_rule_partial {beta U : ℝ} (hb : 0 < beta) (hU : 0 < U) (h3 : 3 ≤ Real.exp (beta * U / 2)) (m : ℤ) :
    HasSum (fun x : ℤ × ℤ => 1 / (beta : ℂ) ^ 2 * chi beta U m x.1 x.2) (if m = 0 then (chiStatic beta U : ℂ) else 0) := by
  refine (hasSum_chi_eq hb hU m).congr_val ?_
  rw [zB_good h3]
  push_cast
  ring

example : HasSum (fun x : ℤ × ℤ => 1 / ((2 : ℝ) : ℂ) ^ 2 * chi 2 2 1 x.1 x.2) 0 :=
  C81_sum_rule_partial two_pos two_pos (by
    have : Real.exp 1 ≤ Real.exp (2 * 2 / 2) := Real.exp_le_exp.mpr (by norm_num)
    have h1 := Real.exp_one_gt_d9
    have e : Real.exp (2 * 2 / 2) = Real.exp 1 * Real.exp 1 := by rw [← Real.exp_add]; norm_num
    rw [e]
    nlinarith) 1

/-- At higher temperatures, `e^(βU/2) < 3`, the susceptibility of the code violates both sum rules: at every bosonic
frequency its sum over the fermionic frequencies converges to a wrong number. -/
theorem C81_high_temperature_violated {beta U : ℝ} (hb : 0 < beta) (hU : 0 < U) (h3 : Real.exp (beta * U / 2) < 3)
    (m : ℤ) :
    ∃ s : ℂ, s ≠ (if m = 0 then (chiStatic beta U : ℂ) else 0)
      ∧ HasSum (fun x : ℤ × ℤ => 1 / (beta : ℂ) ^ 2 * chi beta U m x.1 x.2) s := by
  have hb' : (beta : ℂ) ≠ 0 := by exact_mod_cast hb.ne'
  refine ⟨_, ?_, hasSum_chi_eq hb hU m⟩
  rw [Ne, add_eq_left]
  have hL0 : vL0 beta U m ≠ 0 := by
    intro h
    have h0 := hasSum_L0 hb hU m
    rw [h] at h0
    have h1 : HasSum (fun n : ℤ => 1 / nn beta U m n) 0 := by
      refine Complex.hasSum_ofReal.mp ?_
      simpa using h0
    have h2 : 0 < 1 / nn beta U m 0 := one_div_pos.mpr (nn_pos hU beta m 0)
    exact absurd (le_hasSum h1 0 fun n _ => (one_div_pos.mpr (nn_pos hU beta m n)).le) (not_le.mpr h2)
  refine mul_ne_zero (div_ne_zero hL0 hb') ?_
  have h1 := th_half h3
  have h2 : U ^ 2 / 4 * (1 - 2 * th beta U) - zB beta U ≠ 0 := by
    rw [zB_bad h3]
    have : 0 < 1 - 2 * th beta U := by linarith
    have : 0 < U ^ 2 / 4 * (1 - 2 * th beta U) := by positivity
    linarith
  exact_mod_cast h2

example : ∃ s : ℂ, s ≠ 0 ∧ HasSum (fun x : ℤ × ℤ => 1 / ((1 : ℝ) : ℂ) ^ 2 * chi 1 1 1 x.1 x.2) s :=
  C81_high_temperature_violated one_pos one_pos (by
    have : Real.exp (1 * 1 / 2) ≤ Real.exp 1 := Real.exp_le_exp.mpr (by norm_num)
    linarith [Real.exp_one_lt_d9]) 1

end Verif.HubbardAtom
