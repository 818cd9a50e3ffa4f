import Verif.Fourier.FitProps

/-!
# C100: convergence of the transform
-/

noncomputable section

set_option linter.unusedSectionVars false

namespace Verif.Fourier

open Complex

/-! ## Riemann sums -/

/-- error of the sum over the time mesh, with the trapezoidal rule at the ends -/
def sumError (beta : ℝ) (L : ℕ) (f : ℝ → ℂ) : ℂ :=
  (beta / L : ℝ) * (∑ t ∈ Finset.range L, f (tauOf beta L t) + (f beta - f 0) / 2) - ∫ x in (0 : ℝ)..beta, f x

theorem real_trapezoidal (beta : ℝ) (hb : 0 < beta) (f : ℝ → ℝ) (hf : ContDiff ℝ 2 f) :
    ∃ C, 0 ≤ C ∧ ∀ L : ℕ, 0 < L →
      |(beta / L : ℝ) * (∑ t ∈ Finset.range L, f (tauOf beta L t) + (f beta - f 0) / 2) - ∫ x in (0 : ℝ)..beta, f x|
        ≤ C / (L : ℝ) ^ 2 := by
  have hc : ContinuousOn (iteratedDerivWithin 2 f (Set.uIcc 0 beta)) (Set.uIcc 0 beta) :=
    (hf.contDiffOn (s := Set.uIcc 0 beta)).continuousOn_iteratedDerivWithin le_rfl (uniqueDiffOn_uIcc hb.ne)
  obtain ⟨Z, hZ⟩ := isCompact_uIcc.exists_bound_of_continuousOn hc
  have hZ0 : ∀ x, |iteratedDerivWithin 2 f (Set.uIcc 0 beta) x| ≤ |Z| := by
    intro x
    by_cases hx : x ∈ Set.uIcc 0 beta
    · exact (hZ x hx).trans (le_abs_self Z)
    · rw [iteratedDerivWithin_succ, derivWithin_zero_of_notMem_closure (by rwa [Set.uIcc, closure_Icc]), abs_zero]
      exact abs_nonneg Z
  refine ⟨beta ^ 3 * |Z| / 12, by positivity, fun L hL => ?_⟩
  have hL0 : (0 : ℝ) < L := by exact_mod_cast hL
  have h := trapezoidal_error_le_of_c2 hf.contDiffOn hZ0 hL
  rw [sub_zero, abs_of_pos hb] at h
  have e : trapezoidal_integral f L 0 beta
      = (beta / L : ℝ) * (∑ t ∈ Finset.range L, f (tauOf beta L t) + (f beta - f 0) / 2) := by
    unfold trapezoidal_integral
    rw [sub_zero]
    congr 1
    obtain ⟨k, rfl⟩ := Nat.exists_eq_succ_of_ne_zero hL.ne'
    rw [Finset.sum_range_succ', Nat.succ_sub_one]
    have e0 : tauOf beta (k.succ) 0 = 0 := by simp [tauOf]
    have e1 : ∀ j : ℕ, (0 : ℝ) + ((j : ℝ) + 1) * beta / (k.succ : ℕ) = tauOf beta k.succ (j + 1) := by
      intro j
      rw [tauOf]
      push_cast
      ring
    rw [e0, Finset.sum_congr rfl fun j _ => congrArg f (e1 j)]
    ring
  rw [trapezoidal_error, e] at h
  refine h.trans (le_of_eq ?_)
  field_simp

theorem sumError_le (beta : ℝ) (hb : 0 < beta) (f : ℝ → ℂ) (hf : ContDiff ℝ 2 f) :
    ∃ C, 0 ≤ C ∧ ∀ L : ℕ, 0 < L → ‖sumError beta L f‖ ≤ C / (L : ℝ) ^ 2 := by
  obtain ⟨C1, h1, hC1⟩ := real_trapezoidal beta hb (fun x => (f x).re) (Complex.reCLM.contDiff.comp hf)
  obtain ⟨C2, h2, hC2⟩ := real_trapezoidal beta hb (fun x => (f x).im) (Complex.imCLM.contDiff.comp hf)
  refine ⟨C1 + C2, by positivity, fun L hL => ?_⟩
  have hint : IntervalIntegrable f MeasureTheory.volume 0 beta := hf.continuous.intervalIntegrable _ _
  have e1 : (sumError beta L f).re = (beta / L : ℝ) * (∑ t ∈ Finset.range L, (f (tauOf beta L t)).re + ((f beta).re - (f 0).re) / 2)
      - ∫ x in (0 : ℝ)..beta, (f x).re := by
    have hi : ∫ x in (0 : ℝ)..beta, (f x).re = (∫ x in (0 : ℝ)..beta, f x).re :=
      Complex.reCLM.intervalIntegral_comp_comm hint
    rw [sumError, Complex.sub_re, Complex.re_ofReal_mul, hi]
    congr 2
    simp
  have e2 : (sumError beta L f).im = (beta / L : ℝ) * (∑ t ∈ Finset.range L, (f (tauOf beta L t)).im + ((f beta).im - (f 0).im) / 2)
      - ∫ x in (0 : ℝ)..beta, (f x).im := by
    have hi : ∫ x in (0 : ℝ)..beta, (f x).im = (∫ x in (0 : ℝ)..beta, f x).im :=
      Complex.imCLM.intervalIntegral_comp_comm hint
    rw [sumError, Complex.sub_im, Complex.im_ofReal_mul, hi]
    congr 2
    simp
  refine (Complex.norm_le_abs_re_add_abs_im _).trans ?_
  rw [e1, e2, add_div]
  exact add_le_add (hC1 L hL) (hC2 L hL)

/-! ## Convergence -/

theorem phase_eq (s : Stat) (beta : ℝ) (hb : 0 < beta) (L : ℕ) (hL : 0 < L) (m : ℤ) (t : ℕ) :
    exp ((1 : ℤ) * (2 * Real.pi * I * (t * (wrap L m : ℕ) / L))) * shiftPhase s beta (tauOf beta L t) 1
      = exp (matsubara s beta m * tauOf beta L t) := by
  have hL' : (L : ℂ) ≠ 0 := by exact_mod_cast hL.ne'
  have hb' : (beta : ℂ) ≠ 0 := by exact_mod_cast hb.ne'
  obtain ⟨k, hk⟩ : ∃ k : ℤ, ((wrap L m : ℕ) : ℤ) = m + L * k := by
    have hpos : (0 : ℤ) < L := by exact_mod_cast hL
    refine ⟨1 - (m + L) / L, ?_⟩
    rw [wrap, Int.toNat_of_nonneg (Int.emod_nonneg _ hpos.ne'), Int.emod_def]
    ring
  have hk' : ((wrap L m : ℕ) : ℂ) = m + L * k := by exact_mod_cast congrArg (fun z : ℤ => (z : ℂ)) hk
  rw [hk']
  have e1 : ((1 : ℤ) : ℂ) * (2 * Real.pi * I * (t * (m + L * k) / L)) = 2 * Real.pi * I * (t * m / L) + ((t * k : ℤ) : ℂ) * (2 * Real.pi * I) := by
    push_cast
    field_simp
  rw [e1, exp_add, exp_int_mul_two_pi_mul_I, mul_one]
  cases s
  · simp only [shiftPhase, matsubara, tauOf]
    rw [← exp_add]
    congr 1
    push_cast
    field_simp
  · simp only [shiftPhase, matsubara, tauOf, mul_one]
    congr 1
    push_cast
    field_simp

theorem tailT_linear (s : Stat) (m1 m2 m3 : ℂ) (beta tau : ℝ) : tailT s m1 m2 m3 beta tau
    = m1 * tailT s 1 0 0 beta tau + m2 * tailT s 0 1 0 beta tau + m3 * tailT s 0 0 1 beta tau := by
  cases s
  · simp only [tailT, Fin.sum_univ_three, poleA, oneFermion]
    simp
    ring
  · simp only [tailT, Fin.sum_univ_three, poleA, oneBoson]
    simp
    ring

theorem contDiff_expReal {n : WithTop ℕ∞} (b c d : ℝ) : ContDiff ℝ n fun x : ℝ => ((Real.exp (b * x + c) / d : ℝ) : ℂ) := by
  have h : ContDiff ℝ n fun x : ℝ => Real.exp (b * x + c) / d := by fun_prop
  exact Complex.ofRealCLM.contDiff.comp h

theorem contDiff_tailT {n : WithTop ℕ∞} (s : Stat) (m1 m2 m3 : ℂ) (beta : ℝ) :
    ContDiff ℝ n fun tau => tailT s m1 m2 m3 beta tau := by
  cases s
  · simp only [tailT]
    refine ContDiff.sum fun j _ => ?_
    unfold oneFermion
    refine contDiff_const.mul ?_
    split_ifs
    · simpa only [add_zero] using contDiff_expReal (-poleB .fermion j) 0 _
    · have h := contDiff_expReal (n := n) (-poleB .fermion j) (poleB .fermion j * beta) (1 + Real.exp (beta * poleB .fermion j))
      have e : ∀ x : ℝ, poleB .fermion j * (beta - x) = -poleB .fermion j * x + poleB .fermion j * beta := fun x => by ring
      simp only [e]
      exact h
  · simp only [tailT]
    refine ContDiff.sum fun j _ => ?_
    unfold oneBoson
    refine contDiff_const.mul ?_
    split_ifs
    · simpa only [add_zero] using contDiff_expReal (-poleB .boson j) 0 _
    · have h := contDiff_expReal (n := n) (-poleB .boson j) (poleB .boson j * beta) (1 - Real.exp (poleB .boson j * beta))
      have e : ∀ x : ℝ, poleB .boson j * (beta - x) = -poleB .boson j * x + poleB .boson j * beta := fun x => by ring
      simp only [e]
      exact h

theorem contDiff_phase {n : WithTop ℕ∞} (s : Stat) (beta : ℝ) (m : ℤ) :
    ContDiff ℝ n fun tau : ℝ => exp (matsubara s beta m * tau) := by
  have h : ContDiff ℝ n fun tau : ℝ => matsubara s beta m * (tau : ℂ) := contDiff_const.mul Complex.ofRealCLM.contDiff
  exact h.cexp

theorem sumError_sub (beta : ℝ) (L : ℕ) (f g : ℝ → ℂ) (hf : Continuous f) (hg : Continuous g) :
    sumError beta L (fun x => f x - g x) = sumError beta L f - sumError beta L g := by
  unfold sumError
  rw [intervalIntegral.integral_sub (hf.intervalIntegrable _ _) (hg.intervalIntegrable _ _), Finset.sum_sub_distrib]
  ring

theorem sumError_mul (beta : ℝ) (L : ℕ) (c : ℂ) (f : ℝ → ℂ) :
    sumError beta L (fun x => c * f x) = c * sumError beta L f := by
  unfold sumError
  rw [intervalIntegral.integral_const_mul, ← Finset.mul_sum]
  ring

/-- the transform in terms of the error of a sum -/
theorem tauToW_error (s : Stat) (beta : ℝ) (hb : 0 < beta) (L N : ℕ) (hL : 0 < L) (hN : 2 * N ≤ L) (m2 m3 : ℂ) (g : ℝ → ℂ)
    (hg : Continuous g) (m : ℤ) :
    ∃ gw, tauToW s beta L N m2 m3 (fun t => g (tauOf beta L t)) = .ok gw ∧
      gw m - ∫ tau in (0 : ℝ)..beta, exp (matsubara s beta m * tau) * g tau
        = sumError beta L fun tau => exp (matsubara s beta m * tau)
          * (g tau - tailT s (firstMoment s (g 0) (g beta)) m2 m3 beta tau) := by
  unfold tauToW
  rw [if_neg (by omega)]
  refine ⟨_, rfl, ?_⟩
  have hL' : (L : ℝ) ≠ 0 := by exact_mod_cast hL.ne'
  have e0 : tauOf beta L 0 = 0 := by simp [tauOf]
  have eL : tauOf beta L L = beta := by
    rw [tauOf]
    field_simp
  dsimp only
  rw [e0, eL]
  set m1 := firstMoment s (g 0) (g beta) with hm1
  have hT : Continuous fun tau => tailT s m1 m2 m3 beta tau := (contDiff_tailT (n := 2) s m1 m2 m3 beta).continuous
  have hE : Continuous fun tau : ℝ => exp (matsubara s beta m * tau) := (contDiff_phase (n := 2) s beta m).continuous
  have hfft : fftw1 1 L (fun t => (beta / L : ℂ) * (shiftPhase s beta (tauOf beta L t) 1
      * (g (tauOf beta L t) - tailT s m1 m2 m3 beta (tauOf beta L t)))) (wrap L m)
      = (beta / L : ℝ) * ∑ t ∈ Finset.range L, exp (matsubara s beta m * tauOf beta L t)
        * (g (tauOf beta L t) - tailT s m1 m2 m3 beta (tauOf beta L t)) := by
    unfold fftw1
    rw [Finset.mul_sum]
    refine Finset.sum_congr rfl fun t _ => ?_
    rw [← phase_eq s beta hb L hL m t]
    push_cast
    ring
  rw [hfft, ← C12_tail_transform s m1 m2 m3 beta hb m]
  have hend : exp (matsubara s beta m * beta) * (g beta - tailT s m1 m2 m3 beta beta)
      = exp (matsubara s beta m * (0 : ℝ)) * (g 0 - tailT s m1 m2 m3 beta 0) := by
    have hj := C12_tail_jump m1 m2 m3 beta hb
    rw [exp_matsubara s beta hb m, ofReal_zero, mul_zero, exp_zero]
    cases s
    · have h1 := hj.1
      simp only [hm1, firstMoment] at h1 ⊢
      linear_combination -h1
    · have h1 := hj.2
      simp only [hm1, firstMoment] at h1 ⊢
      linear_combination -h1
  unfold sumError
  dsimp only
  rw [hend, sub_self, zero_div, add_zero]
  have hint : ∫ tau in (0 : ℝ)..beta, exp (matsubara s beta m * tau) * (g tau - tailT s m1 m2 m3 beta tau)
      = (∫ tau in (0 : ℝ)..beta, exp (matsubara s beta m * tau) * g tau)
        - ∫ tau in (0 : ℝ)..beta, exp (matsubara s beta m * tau) * tailT s m1 m2 m3 beta tau := by
    have i1 : Continuous fun tau : ℝ => exp (matsubara s beta m * tau) * g tau := hE.mul hg
    have i2 : Continuous fun tau : ℝ => exp (matsubara s beta m * tau) * tailT s m1 m2 m3 beta tau := hE.mul hT
    rw [← intervalIntegral.integral_sub (i1.intervalIntegrable _ _) (i2.intervalIntegrable _ _)]
    simp only [mul_sub]
  rw [hint]
  ring

/-- C100: the transform of a nine times differentiable function of imaginary time (`fourier_tr_to_wr` for one lattice vector)
converges to the Fourier integral at every frequency, with an error inversely proportional to the number of times. -/
theorem C100_converges (s : Stat) (beta : ℝ) (hb : 0 < beta) (g : ℝ → ℂ) (hg : ContDiff ℝ 9 g) (m : ℤ) :
    ∃ C, 0 ≤ C ∧ ∀ L N : ℕ, 8 ≤ L → 2 * N ≤ L → ∃ gw, tauToWFit s beta L N (fun t => g (tauOf beta L t)) = .ok gw ∧
      ‖gw m - ∫ tau in (0 : ℝ)..beta, exp (matsubara s beta m * tau) * g tau‖ ≤ C / L := by
  obtain ⟨C, hC0, hC⟩ := C100_moments s beta hb g hg
  have hg2 : ContDiff ℝ 2 g := hg.of_le (by norm_num)
  have hE := contDiff_phase (n := 2) s beta m
  obtain ⟨C0, h0, hC0'⟩ := sumError_le beta hb _ (hE.mul hg2)
  obtain ⟨C1, h1, hC1⟩ := sumError_le beta hb _ (hE.mul (contDiff_tailT (n := 2) s 1 0 0 beta))
  obtain ⟨C2, h2, hC2⟩ := sumError_le beta hb _ (hE.mul (contDiff_tailT (n := 2) s 0 1 0 beta))
  obtain ⟨C3, h3, hC3⟩ := sumError_le beta hb _ (hE.mul (contDiff_tailT (n := 2) s 0 0 1 beta))
  set m1 := firstMoment s (g 0) (g beta) with hm1
  set D2 := deriv g 0 - boundarySign s * deriv g beta
  set D3 := -(iteratedDeriv 2 g 0 - boundarySign s * iteratedDeriv 2 g beta)
  set a1 := ‖deriv g 0‖ + ‖deriv g beta‖
  set a2 := ‖iteratedDeriv 2 g 0‖ + ‖iteratedDeriv 2 g beta‖
  have ha1 : 0 ≤ a1 := by positivity
  have ha2 : 0 ≤ a2 := by positivity
  set M2 := ‖D2‖ + 1e-10 * a1 + C with hM2
  set M3 := ‖D3‖ + 2e-10 * a1 * (1 / beta) + 1e-10 * a2 + C with hM3
  have hM2' : 0 ≤ M2 := by positivity
  have hM3' : 0 ≤ M3 := by positivity
  refine ⟨C0 + ‖m1‖ * C1 + M2 * C2 + M3 * C3, by positivity, fun L N hL hN => ?_⟩
  obtain ⟨m2, m3, hfit, hm2, hm3⟩ := hC L hL
  obtain ⟨gw, hgw, herr⟩ := tauToW_error s beta hb L N (by omega) hN m2 m3 g hg.continuous m
  have hL1 : (1 : ℝ) ≤ L := by exact_mod_cast (by omega : 1 ≤ L)
  have hL0 : (0 : ℝ) < L := by linarith
  refine ⟨gw, ?_, ?_⟩
  · unfold tauToWFit
    rw [if_neg (by omega), hfit]
    exact hgw
  have hCL : C / L ≤ C := div_le_self hC0 hL1
  have b2 : ‖m2‖ ≤ M2 := by
    have := norm_le_norm_add_norm_sub' m2 D2
    linarith
  have b3 : ‖m3‖ ≤ M3 * L := by
    have h := norm_le_norm_add_norm_sub' m3 D3
    have e : 2e-10 * a1 * (L / beta) = 2e-10 * a1 * (1 / beta) * L := by ring
    have h4 : ‖D3‖ ≤ ‖D3‖ * L := le_mul_of_one_le_right (norm_nonneg _) hL1
    have h5 : 1e-10 * a2 ≤ 1e-10 * a2 * L := le_mul_of_one_le_right (by positivity) hL1
    have h6 : C ≤ C * L := le_mul_of_one_le_right hC0 hL1
    rw [e] at hm3
    rw [hM3, add_mul, add_mul, add_mul]
    linarith
  have hsplit : (fun tau : ℝ => exp (matsubara s beta m * tau) * (g tau - tailT s m1 m2 m3 beta tau))
      = fun tau : ℝ => ((exp (matsubara s beta m * tau) * g tau - m1 * (exp (matsubara s beta m * tau) * tailT s 1 0 0 beta tau))
        - m2 * (exp (matsubara s beta m * tau) * tailT s 0 1 0 beta tau))
        - m3 * (exp (matsubara s beta m * tau) * tailT s 0 0 1 beta tau) := by
    funext tau
    rw [tailT_linear]
    ring
  have k0 : Continuous fun tau : ℝ => exp (matsubara s beta m * tau) * g tau := (hE.mul hg2).continuous
  have k1 : Continuous fun tau : ℝ => m1 * (exp (matsubara s beta m * tau) * tailT s 1 0 0 beta tau) :=
    continuous_const.mul (hE.mul (contDiff_tailT (n := 2) s 1 0 0 beta)).continuous
  have k2 : Continuous fun tau : ℝ => m2 * (exp (matsubara s beta m * tau) * tailT s 0 1 0 beta tau) :=
    continuous_const.mul (hE.mul (contDiff_tailT (n := 2) s 0 1 0 beta)).continuous
  have k3 : Continuous fun tau : ℝ => m3 * (exp (matsubara s beta m * tau) * tailT s 0 0 1 beta tau) :=
    continuous_const.mul (hE.mul (contDiff_tailT (n := 2) s 0 0 1 beta)).continuous
  have j1 : Continuous fun tau : ℝ => exp (matsubara s beta m * tau) * g tau
      - m1 * (exp (matsubara s beta m * tau) * tailT s 1 0 0 beta tau) := k0.sub k1
  have j2 : Continuous fun tau : ℝ => exp (matsubara s beta m * tau) * g tau
      - m1 * (exp (matsubara s beta m * tau) * tailT s 1 0 0 beta tau)
      - m2 * (exp (matsubara s beta m * tau) * tailT s 0 1 0 beta tau) := j1.sub k2
  rw [herr, hsplit, sumError_sub _ _ _ _ j2 k3, sumError_sub _ _ _ _ j1 k2,
    sumError_sub _ _ _ _ k0 k1, sumError_mul, sumError_mul, sumError_mul]
  have hLp : 0 < L := by omega
  have t0 := hC0' L hLp
  have t1 : ‖m1 * sumError beta L fun x => exp (matsubara s beta m * x) * tailT s 1 0 0 beta x‖ ≤ ‖m1‖ * (C1 / (L : ℝ) ^ 2) := by
    rw [norm_mul]
    exact mul_le_mul_of_nonneg_left (hC1 L hLp) (norm_nonneg _)
  have t2 : ‖m2 * sumError beta L fun x => exp (matsubara s beta m * x) * tailT s 0 1 0 beta x‖ ≤ M2 * (C2 / (L : ℝ) ^ 2) := by
    rw [norm_mul]
    exact mul_le_mul b2 (hC2 L hLp) (norm_nonneg _) hM2'
  have t3 : ‖m3 * sumError beta L fun x => exp (matsubara s beta m * x) * tailT s 0 0 1 beta x‖
      ≤ M3 * L * (C3 / (L : ℝ) ^ 2) := by
    rw [norm_mul]
    exact mul_le_mul b3 (hC3 L hLp) (norm_nonneg _) (by positivity)
  have hle : (1 : ℝ) / (L : ℝ) ^ 2 ≤ 1 / L := by
    refine one_div_le_one_div_of_le hL0 ?_
    nlinarith
  have hsum : C0 / (L : ℝ) ^ 2 + ‖m1‖ * (C1 / (L : ℝ) ^ 2) + M2 * (C2 / (L : ℝ) ^ 2) + M3 * L * (C3 / (L : ℝ) ^ 2)
      ≤ (C0 + ‖m1‖ * C1 + M2 * C2 + M3 * C3) / L := by
    have e1 : C0 / (L : ℝ) ^ 2 + ‖m1‖ * (C1 / (L : ℝ) ^ 2) + M2 * (C2 / (L : ℝ) ^ 2) + M3 * L * (C3 / (L : ℝ) ^ 2)
        = (C0 + ‖m1‖ * C1 + M2 * C2) * (1 / (L : ℝ) ^ 2) + M3 * C3 * (1 / L) := by
      field_simp
    have e2 : (C0 + ‖m1‖ * C1 + M2 * C2 + M3 * C3) / L = (C0 + ‖m1‖ * C1 + M2 * C2) * (1 / L) + M3 * C3 * (1 / L) := by
      ring
    rw [e1, e2]
    have := mul_le_mul_of_nonneg_left hle (by positivity : 0 ≤ C0 + ‖m1‖ * C1 + M2 * C2)
    linarith
  refine le_trans ?_ hsum
  refine (norm_sub_le _ _).trans (add_le_add ((norm_sub_le _ _).trans (add_le_add ((norm_sub_le _ _).trans
    (add_le_add t0 t1)) t2)) t3)

/-- C100: time meshes with fewer than nine points are accepted by the check of the length for up to three positive
frequencies, and read beyond their end. -/
theorem C100_short_violated (s : Stat) (beta : ℝ) (gt : ℕ → ℂ) (m2 m3 : ℂ) (L N : ℕ) (hL : 2 * N ≤ L) (h8 : L < 8) :
    (∃ gw, tauToW s beta L N m2 m3 gt = .ok gw) ∧ tauToWFit s beta L N gt = .error "index outside of the mesh" := by
  constructor
  · unfold tauToW
    rw [if_neg (by omega)]
    exact ⟨_, rfl⟩
  · unfold tauToWFit fitDerivatives
    rw [if_neg (by omega), if_pos h8]

/-- the hypotheses of `C100_converges`: the Green's function of one level -/
example : ContDiff ℝ 9 fun tau : ℝ => ((-(Real.exp (-tau) / (1 + Real.exp (-1))) : ℝ) : ℂ) := by
  have h : ContDiff ℝ 9 fun x : ℝ => -(Real.exp (-x) / (1 + Real.exp (-1))) := by fun_prop
  exact Complex.ofRealCLM.contDiff.comp h

end Verif.Fourier
