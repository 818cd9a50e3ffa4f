import Verif.Fourier.FitRate
import Mathlib.Analysis.Fourier.AddCircle
import Mathlib.Analysis.PSeries

/-!
# C115: convergence of the transform from Matsubara frequencies to imaginary time

The transform subtracts three poles with the first three moments of the function and sums the rest over the window of the mesh.
For a function whose moments are known exactly, the result converges to the function in imaginary time.
-/

noncomputable section

set_option linter.unusedSectionVars false

namespace Verif.Fourier

open Complex

/-! ## Fourier series on the interval -/

/-- jump of a function over the period, taking the statistics into account -/
def jump (s : Stat) (beta : ℝ) (f : ℝ → ℂ) : ℂ := f 0 - boundarySign s * f beta

/-- Matsubara coefficient -/
def coeff (s : Stat) (beta : ℝ) (f : ℝ → ℂ) (m : ℤ) : ℂ := ∫ tau in (0 : ℝ)..beta, exp (matsubara s beta m * tau) * f tau

theorem exp_matsubara_sign (s : Stat) (beta : ℝ) (hb : 0 < beta) (m : ℤ) : exp (matsubara s beta m * beta) = boundarySign s := by
  rw [exp_matsubara s beta hb m]
  cases s <;> rfl

theorem boundarySign_sq (s : Stat) : boundarySign s * boundarySign s = 1 := by cases s <;> simp [boundarySign]

theorem shiftPhase_beta (s : Stat) (beta : ℝ) (hb : 0 < beta) : shiftPhase s beta beta 1 = boundarySign s := by
  have hb' : (beta : ℂ) ≠ 0 := by exact_mod_cast hb.ne'
  cases s
  · simp only [shiftPhase, boundarySign, Int.cast_one, one_mul]
    rw [div_mul_cancel₀ _ hb', exp_pi_mul_I]
  · rfl

theorem shiftPhase_zero (s : Stat) (beta : ℝ) (k : ℤ) : shiftPhase s beta 0 k = 1 := by cases s <;> simp [shiftPhase]

theorem phase_shift (s : Stat) (beta : ℝ) (hb : 0 < beta) (m : ℤ) (tau : ℝ) :
    exp (2 * Real.pi * I * m * tau / beta) * shiftPhase s beta tau 1 = exp (matsubara s beta m * tau) := by
  have hb' : (beta : ℂ) ≠ 0 := by exact_mod_cast hb.ne'
  cases s
  · simp only [shiftPhase, matsubara, Int.cast_one, one_mul]
    rw [← exp_add]
    congr 1
    field_simp
  · simp only [shiftPhase, matsubara, mul_one]
    congr 1
    field_simp

/-- a continuous function without jump is the sum of its Matsubara series -/
theorem hasSum_matsubara (s : Stat) (beta : ℝ) (hb : 0 < beta) (f : ℝ → ℂ) (hf : Continuous f) (hj : jump s beta f = 0)
    (hs : Summable (coeff s beta f)) (tau : ℝ) (h0 : 0 ≤ tau) (h1 : tau ≤ beta) :
    HasSum (fun m : ℤ => (1 / beta : ℂ) * coeff s beta f m * exp (-(matsubara s beta m * tau))) (f tau) := by
  have : Fact (0 < beta) := ⟨hb⟩
  have hb' : (beta : ℂ) ≠ 0 := by exact_mod_cast hb.ne'
  set F : ℝ → ℂ := fun x => shiftPhase s beta x 1 * f x with hF
  have hcont : Continuous F := by
    refine Continuous.mul ?_ hf
    cases s <;> simp only [shiftPhase] <;> fun_prop
  have hper : F 0 = F beta := by
    simp only [hF]
    rw [shiftPhase_zero, shiftPhase_beta s beta hb, one_mul]
    exact sub_eq_zero.1 hj
  set G : C(AddCircle beta, ℂ) := ⟨AddCircle.liftIco beta 0 F, AddCircle.liftIco_zero_continuous hper hcont.continuousOn⟩ with hG
  have hval0 : ∀ x ∈ Set.Ico 0 beta, G (x : AddCircle beta) = F x := by
    intro x hx
    have h : AddCircle.liftIco beta 0 F (x : AddCircle beta) = F x := AddCircle.liftIco_zero_coe_apply hx
    exact h
  have hcoef : ∀ k : ℤ, fourierCoeff G k = (1 / beta : ℂ) * coeff s beta f (-k) := by
    intro k
    rw [fourierCoeff_eq_intervalIntegral _ _ 0, zero_add, Complex.real_smul]
    push_cast
    rw [coeff]
    congr 1
    refine intervalIntegral.integral_congr_Ioo_of_le hb.le fun x hx => ?_
    have hx' : x ∈ Set.Ico 0 beta := ⟨hx.1.le, hx.2⟩
    have hv : G (x : AddCircle beta) = F x := hval0 x hx'
    rw [hv, fourier_coe_apply, smul_eq_mul, hF]
    dsimp only
    rw [← mul_assoc, phase_shift s beta hb]
  have hsum : Summable (fourierCoeff G) := by
    have e : fourierCoeff G = fun k => (1 / beta : ℂ) * coeff s beta f (-k) := funext hcoef
    rw [e]
    exact ((Equiv.neg ℤ).summable_iff.2 hs).mul_left _
  have h := has_pointwise_sum_fourier_series_of_summable hsum (tau : AddCircle beta)
  have hval : G (tau : AddCircle beta) = F tau := by
    rcases h1.lt_or_eq with h | h
    · exact hval0 tau ⟨h0, h⟩
    · rw [h, AddCircle.coe_period, ← hper]
      exact hval0 0 ⟨le_rfl, hb⟩
  rw [hval] at h
  have h2 := ((Equiv.neg ℤ).hasSum_iff.2 h).mul_left (shiftPhase s beta tau (-1))
  have e1 : shiftPhase s beta tau (-1) * F tau = f tau := by
    rw [hF]
    dsimp only
    rw [← mul_assoc, mul_comm (shiftPhase s beta tau (-1)), shiftPhase_mul, one_mul]
  rw [e1] at h2
  refine h2.congr_fun ?_
  intro m
  simp only [Function.comp, Equiv.neg_apply, hcoef, neg_neg, smul_eq_mul]
  rw [fourier_coe_apply]
  have h3 : shiftPhase s beta tau (-1) * exp (2 * Real.pi * I * (-m : ℤ) * tau / beta) = exp (-(matsubara s beta m * tau)) := by
    have e2 := phase_shift s beta hb m tau
    have e3 : exp (2 * Real.pi * I * (-m : ℤ) * tau / beta) * exp (2 * Real.pi * I * m * tau / beta) = 1 := by
      rw [← exp_add]
      push_cast
      rw [show 2 * (Real.pi : ℂ) * I * -m * tau / beta + 2 * Real.pi * I * m * tau / beta = 0 by ring, exp_zero]
    have e4 := shiftPhase_mul s beta tau
    rw [exp_neg, ← e2]
    refine eq_inv_of_mul_eq_one_left ?_
    calc _ = (exp (2 * Real.pi * I * (-m : ℤ) * tau / beta) * exp (2 * Real.pi * I * m * tau / beta))
        * (shiftPhase s beta tau 1 * shiftPhase s beta tau (-1)) := by ring
      _ = 1 := by rw [e3, e4, one_mul]
  rw [← h3]
  ring

/-! ## Decay of the coefficients -/

/-- integration by parts -/
theorem coeff_parts (s : Stat) (beta : ℝ) (hb : 0 < beta) (f f' : ℝ → ℂ) (hf : ∀ x, HasDerivAt f (f' x) x) (hc : Continuous f')
    (m : ℤ) (hm : matsubara s beta m ≠ 0) :
    coeff s beta f m = -(jump s beta f + coeff s beta f' m) / matsubara s beta m := by
  set w := matsubara s beta m with hw
  have hfc : Continuous f := continuous_iff_continuousAt.2 fun x => (hf x).continuousAt
  have hd : ∀ x : ℝ, HasDerivAt (fun x : ℝ => exp (w * x)) (w * exp (w * x)) x := by
    intro x
    have h := ((Complex.ofRealCLM.hasDerivAt (x := x)).const_mul w).cexp
    refine h.congr_deriv ?_
    simp
    ring
  have h := intervalIntegral.integral_eq_sub_of_hasDerivAt (a := 0) (b := beta) (f := fun x : ℝ => exp (w * x) * f x)
    (f' := fun x => w * exp (w * x) * f x + exp (w * x) * f' x) (fun x _ => (hd x).mul (hf x))
    (by apply Continuous.intervalIntegrable; fun_prop)
  rw [intervalIntegral.integral_add (by apply Continuous.intervalIntegrable; fun_prop)
    (by apply Continuous.intervalIntegrable; fun_prop)] at h
  simp only [mul_assoc] at h
  rw [intervalIntegral.integral_const_mul] at h
  rw [exp_matsubara_sign s beta hb, Complex.ofReal_zero, mul_zero, exp_zero, one_mul] at h
  rw [eq_div_iff hm, coeff, coeff, jump]
  linear_combination h

theorem coeff_norm_le (s : Stat) (beta : ℝ) (hb : 0 < beta) (f : ℝ → ℂ) (Z : ℝ) (hZ : ∀ x ∈ Set.Icc 0 beta, ‖f x‖ ≤ Z) (m : ℤ) :
    ‖coeff s beta f m‖ ≤ Z * beta := by
  have h := intervalIntegral.norm_integral_le_of_norm_le_const (a := 0) (b := beta) (C := Z)
    (f := fun tau : ℝ => exp (matsubara s beta m * tau) * f tau) (by
      intro x hx
      rw [Set.uIoc_of_le hb.le] at hx
      rw [norm_mul]
      have e : ‖exp (matsubara s beta m * x)‖ = 1 := by
        rw [norm_exp]
        cases s <;> simp [matsubara]
      rw [e, one_mul]
      exact hZ x ⟨hx.1.le, hx.2⟩)
  rw [sub_zero, abs_of_pos hb] at h
  exact h

/-- four derivatives and no jump in the first three give a decay with the fourth power -/
theorem coeff_decay (s : Stat) (beta : ℝ) (hb : 0 < beta) (f : ℝ → ℂ) (hf : ContDiff ℝ 4 f) (h0 : jump s beta f = 0)
    (h1 : jump s beta (deriv f) = 0) (h2 : jump s beta (iteratedDeriv 2 f) = 0) :
    ∃ K, 0 ≤ K ∧ ∀ m, matsubara s beta m ≠ 0 → ‖coeff s beta f m‖ ≤ K / ‖matsubara s beta m‖ ^ 4 := by
  have hd : ∀ k : ℕ, k < 4 → ∀ x, HasDerivAt (iteratedDeriv k f) (iteratedDeriv (k + 1) f x) x := by
    intro k hk x
    rw [iteratedDeriv_succ]
    exact (hf.differentiable_iteratedDeriv k (by exact_mod_cast hk) x).hasDerivAt
  have hc : ∀ k : ℕ, k ≤ 4 → Continuous (iteratedDeriv k f) := fun k hk => hf.continuous_iteratedDeriv k (by exact_mod_cast hk)
  obtain ⟨Z, hZ⟩ := (isCompact_Icc (a := (0 : ℝ)) (b := beta)).exists_bound_of_continuousOn (hc 4 le_rfl).continuousOn
  have hZ0 : 0 ≤ Z := (norm_nonneg _).trans (hZ 0 ⟨le_rfl, hb.le⟩)
  refine ⟨‖jump s beta (iteratedDeriv 3 f)‖ + Z * beta, by positivity, fun m hm => ?_⟩
  have e0 := coeff_parts s beta hb _ _ (hd 0 (by norm_num)) (hc 1 (by norm_num)) m hm
  have e1 := coeff_parts s beta hb _ _ (hd 1 (by norm_num)) (hc 2 (by norm_num)) m hm
  have e2 := coeff_parts s beta hb _ _ (hd 2 (by norm_num)) (hc 3 (by norm_num)) m hm
  have e3 := coeff_parts s beta hb _ _ (hd 3 (by norm_num)) (hc 4 (by norm_num)) m hm
  rw [iteratedDeriv_zero, h0] at e0
  rw [iteratedDeriv_one, h1] at e1
  rw [h2] at e2
  simp only [zero_add, Nat.reduceAdd, iteratedDeriv_one] at e0 e1 e2 e3
  rw [e0, e1, e2, e3]
  have e : -(-(-(-(jump s beta (iteratedDeriv 3 f) + coeff s beta (iteratedDeriv 4 f) m) / matsubara s beta m)
      / matsubara s beta m) / matsubara s beta m) / matsubara s beta m
      = (jump s beta (iteratedDeriv 3 f) + coeff s beta (iteratedDeriv 4 f) m) / matsubara s beta m ^ 4 := by
    field_simp
  rw [e, norm_div, norm_pow]
  gcongr
  exact (norm_add_le _ _).trans (add_le_add le_rfl (coeff_norm_le s beta hb _ Z hZ m))

/-! ## The window -/

/-- indices of the frequency mesh -/
def wSet (s : Stat) (N : ℕ) : Finset ℤ := (wIndices s N).toFinset

theorem wIndices_nodup (s : Stat) (N : ℕ) : (wIndices s N).Nodup := by
  cases s
  · exact (List.nodup_range).map fun a b h => by simpa using h
  · exact (List.nodup_range).map fun a b h => by simpa using h

theorem mem_wSet (s : Stat) (N : ℕ) (hN : 0 < N) (m : ℤ) :
    m ∈ wSet s N ↔ match s with
      | .fermion => -(N : ℤ) ≤ m ∧ m < N
      | .boson => |m| < N := by
  cases s
  · simp only [wSet, List.mem_toFinset, wIndices, List.mem_map, List.mem_range]
    constructor
    · rintro ⟨j, hj, rfl⟩
      omega
    · intro h
      exact ⟨(m + N).toNat, by omega, by omega⟩
  · simp only [wSet, List.mem_toFinset, wIndices, List.mem_map, List.mem_range]
    constructor
    · rintro ⟨j, hj, rfl⟩
      rw [abs_lt]
      omega
    · intro h
      rw [abs_lt] at h
      exact ⟨(m + (N - 1)).toNat, by omega, by omega⟩

/-- size of the frequencies outside of the window -/
theorem matsubara_outside (s : Stat) (beta : ℝ) (hb : 0 < beta) (N : ℕ) (hN : 0 < N) (m : ℤ) (hm : m ∉ wSet s N) :
    Real.pi / beta * N ≤ ‖matsubara s beta m‖ ∧ Real.pi / beta * |(m : ℝ)| ≤ ‖matsubara s beta m‖ ∧ m ≠ 0 := by
  rw [mem_wSet s N hN] at hm
  have key : ∀ (x : ℝ) (hx : (N : ℝ) ≤ |x| ∧ |(m : ℝ)| ≤ |x|) (hn : ‖matsubara s beta m‖ = Real.pi / beta * |x|),
      Real.pi / beta * N ≤ ‖matsubara s beta m‖ ∧ Real.pi / beta * |(m : ℝ)| ≤ ‖matsubara s beta m‖ := by
    intro x hx hn
    have hpos : 0 ≤ Real.pi / beta := by positivity
    rw [hn]
    exact ⟨mul_le_mul_of_nonneg_left hx.1 hpos, mul_le_mul_of_nonneg_left hx.2 hpos⟩
  cases s
  · dsimp only at hm
    have hcase : (N : ℤ) ≤ m ∨ m < -(N : ℤ) := by
      by_contra h
      push Not at h
      exact hm ⟨by omega, by omega⟩
    have h1 : (N : ℤ) ≤ |2 * m + 1| ∧ |m| ≤ |2 * m + 1| := by
      rcases hcase with h | h
      · rw [abs_of_nonneg (by omega : 0 ≤ 2 * m + 1), abs_of_nonneg (by omega : 0 ≤ m)]
        omega
      · rw [abs_of_neg (by omega : 2 * m + 1 < 0), abs_of_neg (by omega : m < 0)]
        omega
    have h2 := key (2 * m + 1) ⟨by exact_mod_cast h1.1, by exact_mod_cast h1.2⟩ (by
      simp only [matsubara]
      rw [norm_mul, norm_I, one_mul, norm_div, norm_mul, Complex.norm_real, Complex.norm_real, Real.norm_of_nonneg hb.le,
        Real.norm_of_nonneg Real.pi_pos.le]
      have : ‖(2 * (m : ℂ) + 1)‖ = |2 * (m : ℝ) + 1| := by
        have : (2 * (m : ℂ) + 1) = ((2 * (m : ℝ) + 1 : ℝ) : ℂ) := by push_cast; ring
        rw [this, Complex.norm_real, Real.norm_eq_abs]
      rw [this]
      ring)
    exact ⟨h2.1, h2.2, by omega⟩
  · dsimp only at hm
    have h1 : (N : ℤ) ≤ |2 * m| ∧ |m| ≤ |2 * m| := by
      rw [abs_mul, abs_two]
      have := abs_nonneg m
      omega
    have h2 := key (2 * m) ⟨by exact_mod_cast h1.1, by exact_mod_cast h1.2⟩ (by
      simp only [matsubara]
      rw [norm_mul, norm_I, one_mul, norm_div, norm_mul, Complex.norm_real, Complex.norm_real, Real.norm_of_nonneg hb.le,
        Real.norm_of_nonneg Real.pi_pos.le]
      have : ‖(2 * (m : ℂ))‖ = |2 * (m : ℝ)| := by
        have : (2 * (m : ℂ)) = ((2 * (m : ℝ) : ℝ) : ℂ) := by push_cast; ring
        rw [this, Complex.norm_real, Real.norm_eq_abs]
      rw [this]
      ring)
    refine ⟨h2.1, h2.2, ?_⟩
    rintro rfl
    simp at hm
    omega

/-- bound of a coefficient outside of the window -/
theorem coeff_outside (s : Stat) (beta : ℝ) (hb : 0 < beta) (f : ℝ → ℂ) (K : ℝ) (hK0 : 0 ≤ K)
    (hK : ∀ m, matsubara s beta m ≠ 0 → ‖coeff s beta f m‖ ≤ K / ‖matsubara s beta m‖ ^ 4) (N : ℕ) (hN : 0 < N) (m : ℤ)
    (hm : m ∉ wSet s N) : ‖coeff s beta f m‖ ≤ K * (beta / Real.pi) ^ 4 / N ^ 2 * (1 / (m : ℝ) ^ 2) := by
  obtain ⟨h1, h2, h3⟩ := matsubara_outside s beta hb N hN m hm
  have hN' : (0 : ℝ) < N := by exact_mod_cast hN
  have hm' : (0 : ℝ) < |(m : ℝ)| := abs_pos.2 (by exact_mod_cast h3)
  have hp : 0 < Real.pi / beta := by positivity
  have hw : 0 < ‖matsubara s beta m‖ := lt_of_lt_of_le (by positivity) h1
  refine (hK m (norm_pos_iff.1 hw)).trans ?_
  have h4 : (Real.pi / beta * N) ^ 2 * (Real.pi / beta * |(m : ℝ)|) ^ 2 ≤ ‖matsubara s beta m‖ ^ 4 := by
    calc _ ≤ ‖matsubara s beta m‖ ^ 2 * ‖matsubara s beta m‖ ^ 2 := by gcongr
      _ = _ := by ring
  have h5 : K / ‖matsubara s beta m‖ ^ 4 ≤ K / ((Real.pi / beta * N) ^ 2 * (Real.pi / beta * |(m : ℝ)|) ^ 2) := by gcongr
  refine h5.trans (le_of_eq ?_)
  rw [mul_pow, mul_pow, sq_abs]
  have hm2 : (m : ℝ) ≠ 0 := by exact_mod_cast h3
  field_simp

theorem summable_coeff (s : Stat) (beta : ℝ) (hb : 0 < beta) (f : ℝ → ℂ) (K : ℝ) (hK0 : 0 ≤ K)
    (hK : ∀ m, matsubara s beta m ≠ 0 → ‖coeff s beta f m‖ ≤ K / ‖matsubara s beta m‖ ^ 4) : Summable (coeff s beta f) := by
  have h1 : Summable fun m : ℤ => K * (beta / Real.pi) ^ 4 / (1 : ℕ) ^ 2 * (1 / (m : ℝ) ^ 2) :=
    (Real.summable_one_div_int_pow.2 (by norm_num)).mul_left _
  refine Summable.of_norm_bounded_eventually h1 ?_
  filter_upwards [(wSet s 1).finite_toSet.compl_mem_cofinite] with m hm
  exact coeff_outside s beta hb f K hK0 hK 1 one_pos m hm

/-- error of the sum over the window -/
theorem window_error (s : Stat) (beta : ℝ) (hb : 0 < beta) (f : ℝ → ℂ) (hf : ContDiff ℝ 4 f) (h0 : jump s beta f = 0)
    (h1 : jump s beta (deriv f) = 0) (h2 : jump s beta (iteratedDeriv 2 f) = 0) :
    ∃ C, 0 ≤ C ∧ ∀ N : ℕ, 0 < N → ∀ tau, 0 ≤ tau → tau ≤ beta →
      ‖(1 / beta : ℂ) * ∑ m ∈ wSet s N, coeff s beta f m * exp (-(matsubara s beta m * tau)) - f tau‖ ≤ C / N ^ 2 := by
  obtain ⟨K, hK0, hK⟩ := coeff_decay s beta hb f hf h0 h1 h2
  have hsum := summable_coeff s beta hb f K hK0 hK
  have hz : Summable fun m : ℤ => 1 / (m : ℝ) ^ 2 := Real.summable_one_div_int_pow.2 (by norm_num)
  refine ⟨1 / beta * (K * (beta / Real.pi) ^ 4) * ∑' m : ℤ, 1 / (m : ℝ) ^ 2, by positivity, fun N hN tau ht0 ht1 => ?_⟩
  have hN' : (0 : ℝ) < N := by exact_mod_cast hN
  have h := hasSum_matsubara s beta hb f hf.continuous h0 hsum tau ht0 ht1
  set F : ℤ → ℂ := fun m => (1 / beta : ℂ) * coeff s beta f m * exp (-(matsubara s beta m * tau)) with hF
  have hfin : HasSum (fun m => if m ∈ wSet s N then F m else 0) (∑ m ∈ wSet s N, F m) := by
    have h3 : HasSum (fun m => if m ∈ wSet s N then F m else 0) (∑ m ∈ wSet s N, if m ∈ wSet s N then F m else 0) :=
      hasSum_sum_of_ne_finset_zero fun m hm => if_neg hm
    rwa [Finset.sum_congr rfl fun m hm => if_pos hm] at h3
  have hd := hfin.sub h
  have e1 : (1 / beta : ℂ) * ∑ m ∈ wSet s N, coeff s beta f m * exp (-(matsubara s beta m * tau)) = ∑ m ∈ wSet s N, F m := by
    rw [Finset.mul_sum]
    exact Finset.sum_congr rfl fun m _ => by rw [hF]; ring
  rw [e1, ← hd.tsum_eq]
  have hb2 : HasSum (fun m : ℤ => 1 / beta * (K * (beta / Real.pi) ^ 4 / N ^ 2 * (1 / (m : ℝ) ^ 2)))
      (1 / beta * (K * (beta / Real.pi) ^ 4 / N ^ 2 * ∑' m : ℤ, 1 / (m : ℝ) ^ 2)) := (hz.hasSum.mul_left _).mul_left _
  refine (tsum_of_norm_bounded hb2 fun m => ?_).trans (le_of_eq (by ring))
  by_cases hm : m ∈ wSet s N
  · rw [if_pos hm, sub_self, norm_zero]
    positivity
  · rw [if_neg hm, zero_sub, norm_neg, hF]
    dsimp only
    have e2 : ‖exp (-(matsubara s beta m * tau))‖ = 1 := by
      rw [norm_exp]
      cases s <;> simp [matsubara]
    rw [norm_mul, norm_mul, e2, mul_one, norm_div, norm_one, Complex.norm_real, Real.norm_of_nonneg hb.le]
    gcongr
    exact coeff_outside s beta hb f K hK0 hK N hN m hm

end Verif.Fourier
