import Verif.Fourier.FitConv

/-!
# C100: rate of convergence of the transform

The error of the transform is that of the trapezoidal rule for the function without its tail. Its leading term is given by
the jump of the first derivative (Euler-Maclaurin), which vanishes up to the rounding of the stored matrix because the second
moment is right.
-/

noncomputable section

set_option linter.unusedSectionVars false

namespace Verif.Fourier

open Complex

/-! ## Euler-Maclaurin formula -/

theorem em_kernel (f : ℝ → ℂ) (hf : ContDiff ℝ 4 f) (a h x : ℝ) :
    HasDerivAt (fun x : ℝ => (((x - a) ^ 2 * (a + h - x) ^ 2 / 24 : ℝ) : ℂ) * iteratedDeriv 3 f x
      - (((x - a) * (a + h - x) * (2 * a + h - 2 * x) / 12 : ℝ) : ℂ) * iteratedDeriv 2 f x
      + (((h ^ 2 - 6 * h * (x - a) + 6 * (x - a) ^ 2) / 12 : ℝ) : ℂ) * iteratedDeriv 1 f x
      - ((x - a - h / 2 : ℝ) : ℂ) * f x)
      ((((x - a) ^ 2 * (a + h - x) ^ 2 / 24 : ℝ) : ℂ) * iteratedDeriv 4 f x - f x) x := by
  have hd : ∀ k : ℕ, k < 4 → HasDerivAt (iteratedDeriv k f) (iteratedDeriv (k + 1) f x) x := by
    intro k hk
    rw [iteratedDeriv_succ]
    exact ((hf.differentiable_iteratedDeriv k (by exact_mod_cast hk)) x).hasDerivAt
  have h0 : HasDerivAt f (iteratedDeriv 1 f x) x := by simpa using hd 0 (by norm_num)
  have u0 : HasDerivAt (fun x : ℝ => (((x - a) ^ 2 * (a + h - x) ^ 2 / 24 : ℝ) : ℂ))
      (((x - a) * (a + h - x) * (2 * a + h - 2 * x) / 12 : ℝ) : ℂ) x := by
    refine HasDerivAt.ofReal_comp ?_
    have h := ((((hasDerivAt_id x).sub_const a).pow 2).mul (((hasDerivAt_id x).const_sub (a + h)).pow 2)).div_const 24
    refine h.congr_deriv ?_
    simp
    ring
  have u1 : HasDerivAt (fun x : ℝ => (((x - a) * (a + h - x) * (2 * a + h - 2 * x) / 12 : ℝ) : ℂ))
      (((h ^ 2 - 6 * h * (x - a) + 6 * (x - a) ^ 2) / 12 : ℝ) : ℂ) x := by
    refine HasDerivAt.ofReal_comp ?_
    have h := ((((hasDerivAt_id x).sub_const a).mul ((hasDerivAt_id x).const_sub (a + h))).mul
      (((hasDerivAt_id x).const_mul 2).const_sub (2 * a + h))).div_const 12
    refine h.congr_deriv ?_
    simp
    ring
  have u2 : HasDerivAt (fun x : ℝ => (((h ^ 2 - 6 * h * (x - a) + 6 * (x - a) ^ 2) / 12 : ℝ) : ℂ))
      ((x - a - h / 2 : ℝ) : ℂ) x := by
    refine HasDerivAt.ofReal_comp ?_
    have h := (((((hasDerivAt_id x).sub_const a).const_mul (6 * h)).const_sub (h ^ 2)).add
      ((((hasDerivAt_id x).sub_const a).pow 2).const_mul 6)).div_const 12
    refine h.congr_deriv ?_
    simp
    ring
  have u3 : HasDerivAt (fun x : ℝ => ((x - a - h / 2 : ℝ) : ℂ)) ((1 : ℝ) : ℂ) x :=
    HasDerivAt.ofReal_comp (((hasDerivAt_id x).sub_const a).sub_const (h / 2))
  have h := (((u0.mul (hd 3 (by norm_num))).sub (u1.mul (hd 2 (by norm_num)))).add (u2.mul (hd 1 (by norm_num)))).sub (u3.mul h0)
  refine h.congr_deriv ?_
  push_cast
  ring

/-- one interval -/
theorem em_interval (f : ℝ → ℂ) (hf : ContDiff ℝ 4 f) (a h : ℝ) (hh : 0 ≤ h) (Z : ℝ)
    (hZ : ∀ x ∈ Set.Icc a (a + h), ‖iteratedDeriv 4 f x‖ ≤ Z) :
    ‖(h / 2 : ℝ) * (f a + f (a + h)) - (∫ x in a..a + h, f x) - (h ^ 2 / 12 : ℝ) * (deriv f (a + h) - deriv f a)‖
      ≤ Z * h ^ 5 := by
  have hc4 : Continuous (iteratedDeriv 4 f) := hf.continuous_iteratedDeriv 4 (by norm_num)
  have hu : Continuous fun x : ℝ => (((x - a) ^ 2 * (a + h - x) ^ 2 / 24 : ℝ) : ℂ) := by fun_prop
  have i1 : Continuous fun x : ℝ => (((x - a) ^ 2 * (a + h - x) ^ 2 / 24 : ℝ) : ℂ) * iteratedDeriv 4 f x := hu.mul hc4
  have hI := intervalIntegral.integral_eq_sub_of_hasDerivAt (a := a) (b := a + h) (fun x _ => em_kernel f hf a h x)
    ((i1.sub hf.continuous).intervalIntegrable _ _)
  rw [intervalIntegral.integral_sub (i1.intervalIntegrable _ _) (hf.continuous.intervalIntegrable _ _)] at hI
  have e : (h / 2 : ℝ) * (f a + f (a + h)) - (∫ x in a..a + h, f x) - (h ^ 2 / 12 : ℝ) * (deriv f (a + h) - deriv f a)
      = -∫ x in a..a + h, (((x - a) ^ 2 * (a + h - x) ^ 2 / 24 : ℝ) : ℂ) * iteratedDeriv 4 f x := by
    simp only [iteratedDeriv_one] at hI
    push_cast at hI ⊢
    linear_combination hI
  rw [e, norm_neg]
  have hb := intervalIntegral.norm_integral_le_of_norm_le_const (a := a) (b := a + h) (C := h ^ 4 * Z)
    (f := fun x : ℝ => (((x - a) ^ 2 * (a + h - x) ^ 2 / 24 : ℝ) : ℂ) * iteratedDeriv 4 f x) (fun x hx => ?_)
  · refine hb.trans (le_of_eq ?_)
    rw [add_sub_cancel_left, abs_of_nonneg hh]
    ring
  · rw [Set.uIoc_of_le (by linarith)] at hx
    rw [norm_mul]
    have h1 : ‖(((x - a) ^ 2 * (a + h - x) ^ 2 / 24 : ℝ) : ℂ)‖ ≤ h ^ 4 := by
      rw [Complex.norm_real, Real.norm_eq_abs, abs_of_nonneg (by positivity)]
      have p1 : (x - a) ^ 2 ≤ h ^ 2 := by
        refine pow_le_pow_left₀ (by linarith [hx.1]) ?_ 2
        linarith [hx.2]
      have p2 : (a + h - x) ^ 2 ≤ h ^ 2 := by
        refine pow_le_pow_left₀ (by linarith [hx.2]) ?_ 2
        linarith [hx.1]
      have := mul_le_mul p1 p2 (by positivity) (by positivity)
      have h4 : h ^ 2 * h ^ 2 = h ^ 4 := by ring
      have h5 : 0 ≤ (x - a) ^ 2 * (a + h - x) ^ 2 := by positivity
      linarith
    exact mul_le_mul h1 (hZ x ⟨hx.1.le, hx.2⟩) (norm_nonneg _) (by positivity)

/-- the error of the sum without its leading term -/
def emError (beta : ℝ) (L : ℕ) (f : ℝ → ℂ) : ℂ :=
  sumError beta L f - ((beta / L) ^ 2 / 12 : ℝ) * (deriv f beta - deriv f 0)

theorem emError_le (beta : ℝ) (hb : 0 < beta) (f : ℝ → ℂ) (hf : ContDiff ℝ 4 f) :
    ∃ C, 0 ≤ C ∧ ∀ L : ℕ, 0 < L → ‖emError beta L f‖ ≤ C / (L : ℝ) ^ 4 := by
  have hc4 : Continuous (iteratedDeriv 4 f) := hf.continuous_iteratedDeriv 4 (by norm_num)
  obtain ⟨Z, hZ⟩ := (isCompact_Icc (a := (0 : ℝ)) (b := beta)).exists_bound_of_continuousOn hc4.continuousOn
  have hZ0 : 0 ≤ Z := (norm_nonneg _).trans (hZ 0 ⟨le_rfl, hb.le⟩)
  refine ⟨Z * beta ^ 5, by positivity, fun L hL => ?_⟩
  have hL0 : (0 : ℝ) < L := by exact_mod_cast hL
  set h := beta / L with hh
  have hpos : 0 < h := by positivity
  have ht : ∀ t : ℕ, tauOf beta L t = t * h := fun t => by rw [tauOf, hh]; ring
  have hLh : (L : ℝ) * h = beta := by rw [hh]; field_simp
  have key : emError beta L f = ∑ t ∈ Finset.range L, ((h / 2 : ℝ) * (f (t * h) + f (t * h + h))
      - (∫ x in (t * h)..t * h + h, f x) - (h ^ 2 / 12 : ℝ) * (deriv f (t * h + h) - deriv f (t * h))) := by
    rw [Finset.sum_sub_distrib, Finset.sum_sub_distrib, ← Finset.mul_sum, ← Finset.mul_sum]
    have tel : ∀ g : ℝ → ℂ, ∑ t ∈ Finset.range L, (g (t * h + h) - g (t * h)) = g beta - g 0 := by
      intro g
      have := Finset.sum_range_sub (fun t : ℕ => g (t * h)) L
      rw [hLh, Nat.cast_zero, zero_mul] at this
      rw [← this]
      refine Finset.sum_congr rfl fun t _ => ?_
      rw [Nat.cast_succ, add_mul, one_mul]
    rw [tel]
    have hint : ∑ t ∈ Finset.range L, ∫ x in (t * h : ℝ)..t * h + h, f x = ∫ x in (0 : ℝ)..beta, f x := by
      have := intervalIntegral.sum_integral_adjacent_intervals (μ := MeasureTheory.volume) (f := f) (a := fun t : ℕ => (t * h : ℝ)) (n := L)
        (fun k _ => hf.continuous.intervalIntegrable _ _)
      rw [hLh, Nat.cast_zero, zero_mul] at this
      rw [← this]
      refine Finset.sum_congr rfl fun t _ => ?_
      rw [Nat.cast_succ, add_mul, one_mul]
    rw [hint, emError, sumError]
    have hs : ∑ t ∈ Finset.range L, (f (t * h) + f (t * h + h)) = 2 * (∑ t ∈ Finset.range L, f (t * h)) + (f beta - f 0) := by
      rw [← tel f, Finset.sum_add_distrib, Finset.sum_sub_distrib]
      ring
    rw [hs, ← hh]
    simp only [ht]
    push_cast
    ring
  rw [key]
  refine (norm_sum_le_of_le _ fun (t : ℕ) htL => em_interval f hf ((t : ℝ) * h) h hpos.le Z fun x hx => hZ x ⟨?_, ?_⟩).trans ?_
  · exact le_trans (by positivity) hx.1
  · have : (t : ℝ) + 1 ≤ L := by exact_mod_cast Finset.mem_range.1 htL
    have := mul_le_mul_of_nonneg_right this hpos.le
    have := hx.2
    linarith
  · rw [Finset.sum_const, Finset.card_range, nsmul_eq_mul, hh]
    refine le_of_eq ?_
    field_simp

theorem emError_sub (beta : ℝ) (L : ℕ) (f g : ℝ → ℂ) (hf : Differentiable ℝ f) (hg : Differentiable ℝ g) :
    emError beta L (fun x => f x - g x) = emError beta L f - emError beta L g := by
  unfold emError
  rw [sumError_sub _ _ _ _ hf.continuous hg.continuous, deriv_fun_sub (hf _) (hg _), deriv_fun_sub (hf _) (hg _)]
  ring

theorem emError_mul (beta : ℝ) (L : ℕ) (c : ℂ) (f : ℝ → ℂ) (hf : Differentiable ℝ f) :
    emError beta L (fun x => c * f x) = c * emError beta L f := by
  unfold emError
  rw [sumError_mul, deriv_const_mul _ (hf _), deriv_const_mul _ (hf _)]
  ring

/-! ## Rate -/

theorem deriv_expReal (a : ℂ) (b c d x : ℝ) :
    HasDerivAt (fun x : ℝ => a * ((Real.exp (b * x + c) / d : ℝ) : ℂ)) (a * b * ((Real.exp (b * x + c) / d : ℝ) : ℂ)) x := by
  have h := (((((hasDerivAt_id x).const_mul b).add_const c).exp).div_const d).ofReal_comp.const_mul a
  refine h.congr_deriv ?_
  simp
  ring

/-- the derivative of a tail is a tail -/
theorem hasDerivAt_oneFermion (a : ℂ) (b beta x : ℝ) :
    HasDerivAt (fun x => oneFermion a b x beta) (oneFermion (-a * b) b x beta) x := by
  unfold oneFermion
  split_ifs
  · have h := deriv_expReal (-a) (-b) 0 (1 + Real.exp (-beta * b)) x
    simp only [add_zero] at h
    refine h.congr_deriv ?_
    push_cast
    ring
  · have h := deriv_expReal (-a) (-b) (b * beta) (1 + Real.exp (beta * b)) x
    have e : ∀ x : ℝ, b * (beta - x) = -b * x + b * beta := fun x => by ring
    simp only [e]
    refine h.congr_deriv ?_
    push_cast
    ring

theorem hasDerivAt_oneBoson (a : ℂ) (b beta x : ℝ) :
    HasDerivAt (fun x => oneBoson a b x beta) (oneBoson (-a * b) b x beta) x := by
  unfold oneBoson
  split_ifs
  · have h := deriv_expReal a (-b) 0 (Real.exp (-beta * b) - 1) x
    simp only [add_zero] at h
    refine h.congr_deriv ?_
    push_cast
    ring
  · have h := deriv_expReal a (-b) (b * beta) (1 - Real.exp (b * beta)) x
    have e : ∀ x : ℝ, b * (beta - x) = -b * x + b * beta := fun x => by ring
    simp only [e]
    refine h.congr_deriv ?_
    push_cast
    ring

/-- the jump of the derivative of the tail is the second moment -/
theorem deriv_tailT (s : Stat) (m1 m2 m3 : ℂ) (beta : ℝ) (hb : 0 < beta) :
    deriv (fun tau => tailT s m1 m2 m3 beta tau) 0 - boundarySign s * deriv (fun tau => tailT s m1 m2 m3 beta tau) beta
      = m2 := by
  have hm := (C12_moments s m1 m2 m3).2.1
  have hm' : ∑ j, -(poleA s m1 m2 m3 j * poleB s j) = -m2 := by rw [Finset.sum_neg_distrib, hm]
  cases s
  · have hd : ∀ x, HasDerivAt (fun tau => tailT .fermion m1 m2 m3 beta tau)
        (∑ j, oneFermion (-poleA .fermion m1 m2 m3 j * poleB .fermion j) (poleB .fermion j) x beta) x := by
      intro x
      simp only [tailT]
      exact HasDerivAt.fun_sum fun j _ => hasDerivAt_oneFermion _ _ _ _
    rw [(hd 0).deriv, (hd beta).deriv]
    have h : ∑ j, -(oneFermion (-poleA .fermion m1 m2 m3 j * poleB .fermion j) (poleB .fermion j) 0 beta
        + oneFermion (-poleA .fermion m1 m2 m3 j * poleB .fermion j) (poleB .fermion j) beta beta) = -m2 := by
      rw [Finset.sum_congr rfl fun j _ => (C12_jump _ _ beta hb).1, ← hm']
      exact Finset.sum_congr rfl fun j _ => by ring
    rw [Finset.sum_neg_distrib, Finset.sum_add_distrib] at h
    simp only [boundarySign]
    linear_combination -h
  · have hd : ∀ x, HasDerivAt (fun tau => tailT .boson m1 m2 m3 beta tau)
        (∑ j, oneBoson (-poleA .boson m1 m2 m3 j * poleB .boson j) (poleB .boson j) x beta) x := by
      intro x
      simp only [tailT]
      exact HasDerivAt.fun_sum fun j _ => hasDerivAt_oneBoson _ _ _ _
    rw [(hd 0).deriv, (hd beta).deriv]
    have h : ∑ j, -(oneBoson (-poleA .boson m1 m2 m3 j * poleB .boson j) (poleB .boson j) 0 beta
        - oneBoson (-poleA .boson m1 m2 m3 j * poleB .boson j) (poleB .boson j) beta beta) = -m2 := by
      rw [Finset.sum_congr rfl fun j _ => (C12_jump _ _ beta hb).2 (by fin_cases j <;> simp [poleB]), ← hm']
      exact Finset.sum_congr rfl fun j _ => by ring
    rw [Finset.sum_neg_distrib, Finset.sum_sub_distrib] at h
    simp only [boundarySign]
    linear_combination -h

/-- the value of the tail at the ends -/
theorem tail_jump (s : Stat) (m2 m3 : ℂ) (beta : ℝ) (hb : 0 < beta) (g : ℝ → ℂ) :
    boundarySign s * (g beta - tailT s (firstMoment s (g 0) (g beta)) m2 m3 beta beta)
      = g 0 - tailT s (firstMoment s (g 0) (g beta)) m2 m3 beta 0 := by
  have hj := C12_tail_jump (firstMoment s (g 0) (g beta)) m2 m3 beta hb
  cases s
  · have h1 := hj.1
    simp only [firstMoment, boundarySign] at h1 ⊢
    linear_combination -h1
  · have h1 := hj.2
    simp only [firstMoment, boundarySign] at h1 ⊢
    linear_combination -h1

/-- the jump of the derivative of the integrand is the error of the second moment -/
theorem deriv_jump (s : Stat) (m2 m3 : ℂ) (beta : ℝ) (hb : 0 < beta) (g : ℝ → ℂ) (hg : Differentiable ℝ g) (m : ℤ) :
    deriv (fun tau : ℝ => exp (matsubara s beta m * tau) * (g tau - tailT s (firstMoment s (g 0) (g beta)) m2 m3 beta tau)) beta
      - deriv (fun tau : ℝ => exp (matsubara s beta m * tau) * (g tau - tailT s (firstMoment s (g 0) (g beta)) m2 m3 beta tau)) 0
      = m2 - (deriv g 0 - boundarySign s * deriv g beta) := by
  set m1 := firstMoment s (g 0) (g beta) with hm1
  have hT : Differentiable ℝ fun tau => tailT s m1 m2 m3 beta tau :=
    (contDiff_tailT (n := 1) s m1 m2 m3 beta).differentiable (by norm_num)
  have hE : ∀ x : ℝ, HasDerivAt (fun tau : ℝ => exp (matsubara s beta m * tau))
      (matsubara s beta m * exp (matsubara s beta m * x)) x := by
    intro x
    have h := ((Complex.ofRealCLM.hasDerivAt (x := x)).const_mul (matsubara s beta m)).cexp
    refine h.congr_deriv ?_
    simp
    ring
  have hd : ∀ x : ℝ, deriv (fun tau : ℝ => exp (matsubara s beta m * tau) * (g tau - tailT s m1 m2 m3 beta tau)) x
      = matsubara s beta m * exp (matsubara s beta m * x) * (g x - tailT s m1 m2 m3 beta x)
        + exp (matsubara s beta m * x) * (deriv g x - deriv (fun tau => tailT s m1 m2 m3 beta tau) x) :=
    fun x => ((hE x).mul ((hg x).hasDerivAt.sub (hT x).hasDerivAt)).deriv
  rw [hd, hd]
  have hv := tail_jump s m2 m3 beta hb g
  rw [← hm1] at hv
  have hdj := deriv_tailT s m1 m2 m3 beta hb
  have hs : exp (matsubara s beta m * (beta : ℂ)) = boundarySign s := exp_matsubara s beta hb m
  rw [hs, ofReal_zero, mul_zero, exp_zero]
  linear_combination matsubara s beta m * hv + hdj

/-- C100: the transform of a nine times differentiable function of imaginary time converges to the Fourier integral with the
third power of the number of times, up to the rounding of the stored matrix, which enters with the second power. -/
theorem C100_rate (s : Stat) (beta : ℝ) (hb : 0 < beta) (g : ℝ → ℂ) (hg : ContDiff ℝ 9 g) (m : ℤ) :
    ∃ C, 0 ≤ C ∧ ∀ L N : ℕ, 8 ≤ L → 2 * N ≤ L → ∃ gw, tauToWFit s beta L N (fun t => g (tauOf beta L t)) = .ok gw ∧
      ‖gw m - ∫ tau in (0 : ℝ)..beta, exp (matsubara s beta m * tau) * g tau‖
        ≤ 1e-10 * (‖deriv g 0‖ + ‖deriv g beta‖) * (beta / L) ^ 2 / 12 + C / L ^ 3 := by
  obtain ⟨C, hC0, hC⟩ := C100_moments s beta hb g hg
  have hg4 : ContDiff ℝ 4 g := hg.of_le (by norm_num)
  have hE := contDiff_phase (n := 4) s beta m
  obtain ⟨C0, h0, hC0'⟩ := emError_le beta hb _ (hE.mul hg4)
  obtain ⟨C1, h1, hC1⟩ := emError_le beta hb _ (hE.mul (contDiff_tailT (n := 4) s 1 0 0 beta))
  obtain ⟨C2, h2, hC2⟩ := emError_le beta hb _ (hE.mul (contDiff_tailT (n := 4) s 0 1 0 beta))
  obtain ⟨C3, h3, hC3⟩ := emError_le beta hb _ (hE.mul (contDiff_tailT (n := 4) s 0 0 1 beta))
  set m1 := firstMoment s (g 0) (g beta) with hm1
  set D2 := deriv g 0 - boundarySign s * deriv g beta
  set D3 := -(iteratedDeriv 2 g 0 - boundarySign s * iteratedDeriv 2 g beta)
  set a1 := ‖deriv g 0‖ + ‖deriv g beta‖
  set a2 := ‖iteratedDeriv 2 g 0‖ + ‖iteratedDeriv 2 g beta‖
  have ha1 : 0 ≤ a1 := by positivity
  have ha2 : 0 ≤ a2 := by positivity
  set M2 := ‖D2‖ + 1e-10 * a1 + C with hM2
  set M3 := ‖D3‖ + 2e-10 * a1 * (1 / beta) + 1e-10 * a2 + C with hM3
  have hM2' : 0 ≤ M2 := by positivity
  have hM3' : 0 ≤ M3 := by positivity
  refine ⟨C0 + ‖m1‖ * C1 + M2 * C2 + M3 * C3 + beta ^ 2 * C / 12, by positivity, fun L N hL hN => ?_⟩
  obtain ⟨m2, m3, hfit, hm2, hm3⟩ := hC L hL
  obtain ⟨gw, hgw, herr⟩ := tauToW_error s beta hb L N (by omega) hN m2 m3 g hg.continuous m
  have hL1 : (1 : ℝ) ≤ L := by exact_mod_cast (by omega : 1 ≤ L)
  have hL0 : (0 : ℝ) < L := by linarith
  refine ⟨gw, ?_, ?_⟩
  · unfold tauToWFit
    rw [if_neg (by omega), hfit]
    exact hgw
  have hCL : C / L ≤ C := div_le_self hC0 hL1
  have b2 : ‖m2‖ ≤ M2 := by
    have := norm_le_norm_add_norm_sub' m2 D2
    linarith
  have b3 : ‖m3‖ ≤ M3 * L := by
    have h := norm_le_norm_add_norm_sub' m3 D3
    have e : 2e-10 * a1 * (L / beta) = 2e-10 * a1 * (1 / beta) * L := by ring
    have h4 : ‖D3‖ ≤ ‖D3‖ * L := le_mul_of_one_le_right (norm_nonneg _) hL1
    have h5 : 1e-10 * a2 ≤ 1e-10 * a2 * L := le_mul_of_one_le_right (by positivity) hL1
    have h6 : C ≤ C * L := le_mul_of_one_le_right hC0 hL1
    rw [e] at hm3
    rw [hM3, add_mul, add_mul, add_mul]
    linarith
  have hsplit : (fun tau : ℝ => exp (matsubara s beta m * tau) * (g tau - tailT s m1 m2 m3 beta tau))
      = fun tau : ℝ => ((exp (matsubara s beta m * tau) * g tau - m1 * (exp (matsubara s beta m * tau) * tailT s 1 0 0 beta tau))
        - m2 * (exp (matsubara s beta m * tau) * tailT s 0 1 0 beta tau))
        - m3 * (exp (matsubara s beta m * tau) * tailT s 0 0 1 beta tau) := by
    funext tau
    rw [tailT_linear]
    ring
  have d0 : Differentiable ℝ fun tau : ℝ => exp (matsubara s beta m * tau) * g tau :=
    (hE.mul hg4).differentiable (by norm_num)
  have d1 : Differentiable ℝ fun tau : ℝ => exp (matsubara s beta m * tau) * tailT s 1 0 0 beta tau :=
    (hE.mul (contDiff_tailT (n := 4) s 1 0 0 beta)).differentiable (by norm_num)
  have d2 : Differentiable ℝ fun tau : ℝ => exp (matsubara s beta m * tau) * tailT s 0 1 0 beta tau :=
    (hE.mul (contDiff_tailT (n := 4) s 0 1 0 beta)).differentiable (by norm_num)
  have d3 : Differentiable ℝ fun tau : ℝ => exp (matsubara s beta m * tau) * tailT s 0 0 1 beta tau :=
    (hE.mul (contDiff_tailT (n := 4) s 0 0 1 beta)).differentiable (by norm_num)
  have j1 : Differentiable ℝ fun tau : ℝ => exp (matsubara s beta m * tau) * g tau
      - m1 * (exp (matsubara s beta m * tau) * tailT s 1 0 0 beta tau) := d0.sub (d1.const_mul m1)
  have j2 : Differentiable ℝ fun tau : ℝ => exp (matsubara s beta m * tau) * g tau
      - m1 * (exp (matsubara s beta m * tau) * tailT s 1 0 0 beta tau)
      - m2 * (exp (matsubara s beta m * tau) * tailT s 0 1 0 beta tau) := j1.sub (d2.const_mul m2)
  have hem : gw m - ∫ tau in (0 : ℝ)..beta, exp (matsubara s beta m * tau) * g tau
      = (emError beta L (fun tau : ℝ => exp (matsubara s beta m * tau) * g tau)
        - m1 * emError beta L (fun tau : ℝ => exp (matsubara s beta m * tau) * tailT s 1 0 0 beta tau)
        - m2 * emError beta L (fun tau : ℝ => exp (matsubara s beta m * tau) * tailT s 0 1 0 beta tau)
        - m3 * emError beta L (fun tau : ℝ => exp (matsubara s beta m * tau) * tailT s 0 0 1 beta tau))
        + ((beta / L) ^ 2 / 12 : ℝ) * (m2 - D2) := by
    rw [herr, ← emError_mul _ _ _ _ d1, ← emError_mul _ _ _ _ d2, ← emError_mul _ _ _ _ d3,
      ← emError_sub _ _ _ _ d0 (d1.const_mul m1), ← emError_sub _ _ _ _ j1 (d2.const_mul m2),
      ← emError_sub _ _ _ _ j2 (d3.const_mul m3), ← hsplit, emError,
      deriv_jump s m2 m3 beta hb g (hg4.differentiable (by norm_num)) m]
    ring
  have hLp : 0 < L := by omega
  have t0 := hC0' L hLp
  have t1 : ‖m1 * emError beta L fun x : ℝ => exp (matsubara s beta m * x) * tailT s 1 0 0 beta x‖ ≤ ‖m1‖ * (C1 / (L : ℝ) ^ 4) := by
    rw [norm_mul]
    exact mul_le_mul_of_nonneg_left (hC1 L hLp) (norm_nonneg _)
  have t2 : ‖m2 * emError beta L fun x : ℝ => exp (matsubara s beta m * x) * tailT s 0 1 0 beta x‖ ≤ M2 * (C2 / (L : ℝ) ^ 4) := by
    rw [norm_mul]
    exact mul_le_mul b2 (hC2 L hLp) (norm_nonneg _) hM2'
  have t3 : ‖m3 * emError beta L fun x : ℝ => exp (matsubara s beta m * x) * tailT s 0 0 1 beta x‖
      ≤ M3 * L * (C3 / (L : ℝ) ^ 4) := by
    rw [norm_mul]
    exact mul_le_mul b3 (hC3 L hLp) (norm_nonneg _) (by positivity)
  have t4 : ‖(((beta / L) ^ 2 / 12 : ℝ) : ℂ) * (m2 - D2)‖ ≤ (beta / L) ^ 2 / 12 * (1e-10 * a1 + C / L) := by
    rw [norm_mul, Complex.norm_real, Real.norm_eq_abs, abs_of_nonneg (by positivity)]
    exact mul_le_mul_of_nonneg_left hm2 (by positivity)
  have hle : (1 : ℝ) / (L : ℝ) ^ 4 ≤ 1 / (L : ℝ) ^ 3 :=
    one_div_le_one_div_of_le (by positivity) (pow_le_pow_right₀ hL1 (by norm_num))
  have hsum : C0 / (L : ℝ) ^ 4 + ‖m1‖ * (C1 / (L : ℝ) ^ 4) + M2 * (C2 / (L : ℝ) ^ 4) + M3 * L * (C3 / (L : ℝ) ^ 4)
      + (beta / L) ^ 2 / 12 * (1e-10 * a1 + C / L)
      ≤ 1e-10 * a1 * (beta / L) ^ 2 / 12 + (C0 + ‖m1‖ * C1 + M2 * C2 + M3 * C3 + beta ^ 2 * C / 12) / L ^ 3 := by
    have e1 : C0 / (L : ℝ) ^ 4 + ‖m1‖ * (C1 / (L : ℝ) ^ 4) + M2 * (C2 / (L : ℝ) ^ 4) + M3 * L * (C3 / (L : ℝ) ^ 4)
        = (C0 + ‖m1‖ * C1 + M2 * C2) * (1 / (L : ℝ) ^ 4) + M3 * C3 * (1 / (L : ℝ) ^ 3) := by
      field_simp
    have e2 : (C0 + ‖m1‖ * C1 + M2 * C2 + M3 * C3 + beta ^ 2 * C / 12) / (L : ℝ) ^ 3
        = (C0 + ‖m1‖ * C1 + M2 * C2) * (1 / (L : ℝ) ^ 3) + M3 * C3 * (1 / (L : ℝ) ^ 3) + beta ^ 2 * C / 12 * (1 / (L : ℝ) ^ 3) := by
      ring
    have e3 : (beta / L) ^ 2 / 12 * (1e-10 * a1 + C / L)
        = 1e-10 * a1 * (beta / L) ^ 2 / 12 + beta ^ 2 * C / 12 * (1 / (L : ℝ) ^ 3) := by
      field_simp
    rw [e1, e2, e3]
    have := mul_le_mul_of_nonneg_left hle (by positivity : 0 ≤ C0 + ‖m1‖ * C1 + M2 * C2)
    linarith
  rw [hem]
  refine le_trans ?_ hsum
  refine (norm_add_le _ _).trans (add_le_add ?_ t4)
  refine (norm_sub_le _ _).trans (add_le_add ((norm_sub_le _ _).trans (add_le_add ((norm_sub_le _ _).trans
    (add_le_add t0 t1)) t2)) t3)

end Verif.Fourier
