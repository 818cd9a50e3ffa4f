import Verif.Fourier.InverseRate

/-!
# C115: dependence of the transform from imaginary time on its data

The fitted moments amplify errors of the data by the number of times and its square. The subtracted tail is compensated by the
same tail in frequency, which is why the errors of the result stay proportional to those of the data.
-/

noncomputable section

set_option linter.unusedSectionVars false

namespace Verif.Fourier

open Complex

/-- what a unit of a moment adds to the result -/
def momentGain (s : Stat) (beta : ℝ) (L : ℕ) (m1 m2 m3 : ℂ) (m : ℤ) : ℂ :=
  tailW s m1 m2 m3 (matsubara s beta m)
    - (beta / L : ℝ) * ∑ t ∈ Finset.range L, exp (matsubara s beta m * tauOf beta L t) * tailT s m1 m2 m3 beta (tauOf beta L t)

theorem tauToW_gain (s : Stat) (beta : ℝ) (hb : 0 < beta) (L N : ℕ) (hL : 0 < L) (hN : 2 * N ≤ L) (m2 m3 : ℂ) (gt : ℕ → ℂ) :
    ∃ gw, tauToW s beta L N m2 m3 gt = .ok gw ∧ ∀ m, gw m
      = (beta / L : ℝ) * (∑ t ∈ Finset.range L, exp (matsubara s beta m * tauOf beta L t) * gt t)
        + firstMoment s (gt 0) (gt L) * momentGain s beta L 1 0 0 m + m2 * momentGain s beta L 0 1 0 m
        + m3 * momentGain s beta L 0 0 1 m := by
  unfold tauToW
  rw [if_neg (by omega)]
  refine ⟨_, rfl, fun m => ?_⟩
  set m1 := firstMoment s (gt 0) (gt L) with hm1
  have hfft : fftw1 1 L (fun t => (beta / L : ℂ) * (shiftPhase s beta (tauOf beta L t) 1
      * (gt t - tailT s m1 m2 m3 beta (tauOf beta L t)))) (wrap L m)
      = (beta / L : ℝ) * ∑ t ∈ Finset.range L, exp (matsubara s beta m * tauOf beta L t)
        * (gt t - tailT s m1 m2 m3 beta (tauOf beta L t)) := by
    unfold fftw1
    rw [Finset.mul_sum]
    refine Finset.sum_congr rfl fun t _ => ?_
    rw [← phase_eq s beta hb L hL m t]
    push_cast
    ring
  rw [hfft, tailW_linear s m1 m2 m3]
  have e : ∑ t ∈ Finset.range L, exp (matsubara s beta m * tauOf beta L t) * (gt t - tailT s m1 m2 m3 beta (tauOf beta L t))
      = ∑ t ∈ Finset.range L, exp (matsubara s beta m * tauOf beta L t) * gt t
        - (m1 * ∑ t ∈ Finset.range L, exp (matsubara s beta m * tauOf beta L t) * tailT s 1 0 0 beta (tauOf beta L t)
        + m2 * ∑ t ∈ Finset.range L, exp (matsubara s beta m * tauOf beta L t) * tailT s 0 1 0 beta (tauOf beta L t)
        + m3 * ∑ t ∈ Finset.range L, exp (matsubara s beta m * tauOf beta L t) * tailT s 0 0 1 beta (tauOf beta L t)) := by
    rw [Finset.mul_sum, Finset.mul_sum, Finset.mul_sum, ← Finset.sum_add_distrib, ← Finset.sum_add_distrib,
      ← Finset.sum_sub_distrib]
    refine Finset.sum_congr rfl fun t _ => ?_
    rw [tailT_linear s m1 m2 m3]
    ring
  rw [e]
  unfold momentGain
  ring

/-- the gain is the error of the trapezoidal rule, and the ends -/
theorem momentGain_eq (s : Stat) (beta : ℝ) (hb : 0 < beta) (L : ℕ) (m1 m2 m3 : ℂ) (m : ℤ) :
    momentGain s beta L m1 m2 m3 m = (beta / L : ℝ) * (m1 / 2)
      - sumError beta L (fun tau => exp (matsubara s beta m * tau) * tailT s m1 m2 m3 beta tau) := by
  have hj := jump_tail0 s m1 m2 m3 beta hb
  unfold momentGain sumError
  dsimp only
  rw [C12_tail_transform s m1 m2 m3 beta hb m, exp_matsubara_sign s beta hb, ofReal_zero, mul_zero, exp_zero, one_mul]
  have e : boundarySign s * tailT s m1 m2 m3 beta beta - tailT s m1 m2 m3 beta 0 = m1 := by
    rw [jump] at hj
    linear_combination -hj
  rw [e]
  ring

theorem fit_linear (s : Stat) (beta : ℝ) (L : ℕ) (hL : 8 ≤ L) (x y : ℕ → ℂ) :
    ∃ a2 a3 b2 b3, fitDerivatives s beta L x = .ok (a2, a3) ∧ fitDerivatives s beta L y = .ok (b2, b3) ∧
      fitDerivatives s beta L (fun t => x t - y t) = .ok (a2 - b2, a3 - b3) := by
  unfold fitDerivatives
  rw [if_neg (by omega), if_neg (by omega), if_neg (by omega)]
  refine ⟨_, _, _, _, rfl, rfl, ?_⟩
  have e1 : ∀ i : Fin 8, ∑ m : Fin 8, (vInv i m : ℂ) * ((x (m + 1) - y (m + 1) - (x 0 - y 0)) / (tauOf beta L (m + 1) : ℝ))
      = ∑ m : Fin 8, (vInv i m : ℂ) * ((x (m + 1) - x 0) / (tauOf beta L (m + 1) : ℝ))
        - ∑ m : Fin 8, (vInv i m : ℂ) * ((y (m + 1) - y 0) / (tauOf beta L (m + 1) : ℝ)) := by
    intro i
    rw [← Finset.sum_sub_distrib]
    exact Finset.sum_congr rfl fun m _ => by ring
  have e2 : ∀ i : Fin 8, ∑ m : Fin 8, (vInv i m : ℂ) * ((x L - y L - (x (L - (m + 1)) - y (L - (m + 1)))) / (tauOf beta L (m + 1) : ℝ))
      = ∑ m : Fin 8, (vInv i m : ℂ) * ((x L - x (L - (m + 1))) / (tauOf beta L (m + 1) : ℝ))
        - ∑ m : Fin 8, (vInv i m : ℂ) * ((y L - y (L - (m + 1))) / (tauOf beta L (m + 1) : ℝ)) := by
    intro i
    rw [← Finset.sum_sub_distrib]
    exact Finset.sum_congr rfl fun m _ => by ring
  dsimp only
  rw [e1, e1, e2, e2]
  refine congrArg Except.ok (Prod.ext ?_ ?_)
  · ring
  · dsimp only
    ring

theorem fit_small (s : Stat) (beta : ℝ) (hb : 0 < beta) (L : ℕ) (hL : 8 ≤ L) (x : ℕ → ℂ) (δ : ℝ) (hx : ∀ t ≤ L, ‖x t‖ ≤ δ) :
    ∃ a2 a3, fitDerivatives s beta L x = .ok (a2, a3) ∧ ‖a2‖ ≤ 2800 * (δ / (beta / L)) ∧ ‖a3‖ ≤ 2 / (beta / L) * (2800 * (δ / (beta / L))) := by
  obtain ⟨a2, a3, h, h2, h3⟩ := C100_fit s beta hb L hL x (fun _ => 0) (fun _ => 0) δ
    (fun m hm => by simpa using hx m (by omega)) (fun m _ => by simpa using hx (L - m) (by omega))
  refine ⟨a2, a3, h, ?_, ?_⟩
  · simpa [fitBound] using h2
  · simpa [fitBound] using h3

/-- C115: errors of the data in imaginary time change the transform with fitted moments at most proportionally, with a factor that
does not depend on the size of the meshes. -/
theorem C115_stable (s : Stat) (beta : ℝ) (hb : 0 < beta) (m : ℤ) :
    ∃ C, 0 ≤ C ∧ ∀ (L N : ℕ) (x y : ℕ → ℂ) (δ : ℝ), 8 ≤ L → 2 * N ≤ L → (∀ t ≤ L, ‖x t - y t‖ ≤ δ) →
      ∃ xw yw, tauToWFit s beta L N x = .ok xw ∧ tauToWFit s beta L N y = .ok yw ∧ ‖xw m - yw m‖ ≤ C * δ := by
  have hE := contDiff_phase (n := 2) s beta m
  obtain ⟨C1, h1, hC1⟩ := sumError_le beta hb _ (hE.mul (contDiff_tailT (n := 2) s 1 0 0 beta))
  obtain ⟨C2, h2, hC2⟩ := sumError_le beta hb _ (hE.mul (contDiff_tailT (n := 2) s 0 1 0 beta))
  obtain ⟨C3, h3, hC3⟩ := sumError_le beta hb _ (hE.mul (contDiff_tailT (n := 2) s 0 0 1 beta))
  refine ⟨beta + 2 * (beta + C1) + 2800 / beta * C2 + 2 / beta * (2800 / beta) * C3, by positivity, fun L N x y δ hL hN hxy => ?_⟩
  have hLpos : 0 < L := by omega
  have hL1 : (1 : ℝ) ≤ L := by exact_mod_cast (by omega : 1 ≤ L)
  have hL0 : (0 : ℝ) < L := by linarith
  have hδ : 0 ≤ δ := (norm_nonneg _).trans (hxy 0 (by omega))
  obtain ⟨a2, a3, b2, b3, ha, hbb, hd⟩ := fit_linear s beta L hL x y
  obtain ⟨c2, c3, hc, hc2, hc3⟩ := fit_small s beta hb L hL _ δ hxy
  have hcc : (a2 - b2, a3 - b3) = (c2, c3) := Except.ok.inj (hd.symm.trans hc)
  have ec2 : a2 - b2 = c2 := congrArg Prod.fst hcc
  have ec3 : a3 - b3 = c3 := congrArg Prod.snd hcc
  obtain ⟨xw, hxw, ex⟩ := tauToW_gain s beta hb L N hLpos hN a2 a3 x
  obtain ⟨yw, hyw, ey⟩ := tauToW_gain s beta hb L N hLpos hN b2 b3 y
  refine ⟨xw, yw, ?_, ?_, ?_⟩
  · unfold tauToWFit
    rw [if_neg (by omega), ha]
    exact hxw
  · unfold tauToWFit
    rw [if_neg (by omega), hbb]
    exact hyw
  have hm1 : ‖firstMoment s (x 0) (x L) - firstMoment s (y 0) (y L)‖ ≤ 2 * δ := by
    have p0 := hxy 0 (by omega)
    have pL := hxy L le_rfl
    cases s
    · have e : firstMoment .fermion (x 0) (x L) - firstMoment .fermion (y 0) (y L) = -((x 0 - y 0) + (x L - y L)) := by
        simp only [firstMoment]
        ring
      rw [e, norm_neg]
      exact (norm_add_le _ _).trans (by linarith)
    · have e : firstMoment .boson (x 0) (x L) - firstMoment .boson (y 0) (y L) = -((x 0 - y 0) - (x L - y L)) := by
        simp only [firstMoment]
        ring
      rw [e, norm_neg]
      exact (norm_sub_le _ _).trans (by linarith)
  have e : xw m - yw m = (beta / L : ℝ) * (∑ t ∈ Finset.range L, exp (matsubara s beta m * tauOf beta L t) * (x t - y t))
      + (firstMoment s (x 0) (x L) - firstMoment s (y 0) (y L)) * momentGain s beta L 1 0 0 m
      + c2 * momentGain s beta L 0 1 0 m + c3 * momentGain s beta L 0 0 1 m := by
    rw [ex, ey, ← ec2, ← ec3]
    simp only [mul_sub, Finset.sum_sub_distrib]
    ring
  have g1 : ‖momentGain s beta L 1 0 0 m‖ ≤ beta + C1 := by
    rw [momentGain_eq s beta hb]
    refine (norm_sub_le _ _).trans (add_le_add ?_ ((hC1 L hLpos).trans (div_le_self h1 (one_le_pow₀ hL1))))
    rw [norm_mul, Complex.norm_real, Real.norm_of_nonneg (by positivity)]
    have : ‖(1 : ℂ) / 2‖ ≤ 1 := by norm_num
    calc beta / L * ‖(1 : ℂ) / 2‖ ≤ beta / L * 1 := by gcongr
      _ ≤ beta := by rw [mul_one]; exact div_le_self hb.le hL1
  have g2 : ‖momentGain s beta L 0 1 0 m‖ ≤ C2 / (L : ℝ) ^ 2 := by
    rw [momentGain_eq s beta hb, zero_div, mul_zero, zero_sub, norm_neg]
    exact hC2 L hLpos
  have g3 : ‖momentGain s beta L 0 0 1 m‖ ≤ C3 / (L : ℝ) ^ 2 := by
    rw [momentGain_eq s beta hb, zero_div, mul_zero, zero_sub, norm_neg]
    exact hC3 L hLpos
  have t0 : ‖((beta / L : ℝ) : ℂ) * (∑ t ∈ Finset.range L, exp (matsubara s beta m * tauOf beta L t) * (x t - y t))‖ ≤ beta * δ := by
    rw [norm_mul, Complex.norm_real, Real.norm_of_nonneg (by positivity)]
    have h : ‖∑ t ∈ Finset.range L, exp (matsubara s beta m * tauOf beta L t) * (x t - y t)‖ ≤ L * δ := by
      refine (norm_sum_le _ _).trans ?_
      have := Finset.sum_le_card_nsmul (Finset.range L) (fun t => ‖exp (matsubara s beta m * tauOf beta L t) * (x t - y t)‖) δ (by
        intro t ht
        have hn : ‖exp (matsubara s beta m * tauOf beta L t)‖ = 1 := by
          rw [norm_exp]
          cases s <;> simp [matsubara]
        rw [norm_mul, hn, one_mul]
        exact hxy t (Finset.mem_range.1 ht).le)
      rwa [Finset.card_range, nsmul_eq_mul] at this
    calc beta / L * _ ≤ beta / L * (L * δ) := by gcongr
      _ = beta * δ := by field_simp
  have t1 : ‖(firstMoment s (x 0) (x L) - firstMoment s (y 0) (y L)) * momentGain s beta L 1 0 0 m‖ ≤ 2 * (beta + C1) * δ := by
    rw [norm_mul]
    calc _ ≤ 2 * δ * (beta + C1) := by gcongr
      _ = _ := by ring
  have t2 : ‖c2 * momentGain s beta L 0 1 0 m‖ ≤ 2800 / beta * C2 * δ := by
    rw [norm_mul]
    calc _ ≤ 2800 * (δ / (beta / L)) * (C2 / (L : ℝ) ^ 2) := by gcongr
      _ = 2800 / beta * C2 * δ * (1 / L) := by field_simp
      _ ≤ 2800 / beta * C2 * δ * 1 := by
        gcongr
        rw [div_le_one hL0]
        exact hL1
      _ = _ := mul_one _
  have t3 : ‖c3 * momentGain s beta L 0 0 1 m‖ ≤ 2 / beta * (2800 / beta) * C3 * δ := by
    rw [norm_mul]
    calc _ ≤ 2 / (beta / L) * (2800 * (δ / (beta / L))) * (C3 / (L : ℝ) ^ 2) := by gcongr
      _ = 2 / beta * (2800 / beta) * C3 * δ := by field_simp
  rw [e]
  have := (norm_add_le _ _).trans (add_le_add ((norm_add_le _ _).trans (add_le_add ((norm_add_le _ _).trans (add_le_add t0 t1)) t2)) t3)
  refine this.trans (le_of_eq ?_)
  ring

/-- C115: data close to a nine times differentiable function of imaginary time have a transform close to the Fourier integral. -/
theorem C115_close (s : Stat) (beta : ℝ) (hb : 0 < beta) (P : ℝ → ℂ) (hP : ContDiff ℝ 9 P) (m : ℤ) :
    ∃ C, 0 ≤ C ∧ ∀ (L N : ℕ) (x : ℕ → ℂ) (δ : ℝ), 8 ≤ L → 2 * N ≤ L → (∀ t ≤ L, ‖x t - P (tauOf beta L t)‖ ≤ δ) →
      ∃ xw, tauToWFit s beta L N x = .ok xw ∧ ‖xw m - coeff s beta P m‖ ≤ C * (δ + 1 / (L : ℝ) ^ 2) := by
  obtain ⟨C1, h1, hC1⟩ := C115_stable s beta hb m
  obtain ⟨C2, h2, hC2⟩ := C100_rate s beta hb P hP m
  set a := ‖deriv P 0‖ + ‖deriv P beta‖ with ha
  have ha0 : 0 ≤ a := by positivity
  refine ⟨C1 + (1e-10 * a * beta ^ 2 / 12 + C2), by positivity, fun L N x δ hL hN hx => ?_⟩
  obtain ⟨xw, yw, hxw, hyw, hd⟩ := hC1 L N x _ δ hL hN hx
  obtain ⟨zw, hzw, hz⟩ := hC2 L N hL hN
  have e : yw = zw := Except.ok.inj (hyw.symm.trans hzw)
  subst e
  refine ⟨xw, hxw, ?_⟩
  have hL1 : (1 : ℝ) ≤ L := by exact_mod_cast (by omega : 1 ≤ L)
  have hL0 : (0 : ℝ) < L := by linarith
  have hδ : 0 ≤ δ := (norm_nonneg _).trans (hx 0 (by omega))
  have h3 : C2 / (L : ℝ) ^ 3 ≤ C2 / (L : ℝ) ^ 2 := by
    gcongr
    norm_num
  have h4 : ‖yw m - coeff s beta P m‖ ≤ (1e-10 * a * beta ^ 2 / 12 + C2) * (1 / (L : ℝ) ^ 2) := by
    refine hz.trans ?_
    have e : 1e-10 * a * (beta / L) ^ 2 / 12 + C2 / (L : ℝ) ^ 2 = (1e-10 * a * beta ^ 2 / 12 + C2) * (1 / (L : ℝ) ^ 2) := by
      field_simp
    linarith
  have h5 : xw m - coeff s beta P m = (xw m - yw m) + (yw m - coeff s beta P m) := by ring
  rw [h5]
  refine (norm_add_le _ _).trans ?_
  set K := 1e-10 * a * beta ^ 2 / 12 + C2 with hK
  have hK0 : 0 ≤ K := by positivity
  have hq : 0 ≤ 1 / (L : ℝ) ^ 2 := by positivity
  have p1 : 0 ≤ C1 * (1 / (L : ℝ) ^ 2) := mul_nonneg h1 hq
  have p2 : 0 ≤ K * δ := mul_nonneg hK0 hδ
  calc _ ≤ C1 * δ + K * (1 / (L : ℝ) ^ 2) := add_le_add hd h4
    _ ≤ (C1 + K) * (δ + 1 / (L : ℝ) ^ 2) := by
      have e2 : (C1 + K) * (δ + 1 / (L : ℝ) ^ 2) = C1 * δ + K * (1 / (L : ℝ) ^ 2) + (C1 * (1 / (L : ℝ) ^ 2) + K * δ) := by ring
      linarith

/-! ## Products -/

/-- quality of the moments given to the transform to imaginary time -/
def MomentsOk (s : Stat) (beta : ℝ) (e : ℝ) (N : ℕ) (g : ℝ → ℂ) (M : Moments) : Prop :=
  N * ‖M.m1 - (exactMoments s beta g).m1‖ + ‖M.m2 - (exactMoments s beta g).m2‖ + ‖M.m3 - (exactMoments s beta g).m3‖
    ≤ e / (N : ℝ) ^ 2

/-- the transform to imaginary time, with good moments -/
theorem w_to_tau_ok (s : Stat) (beta : ℝ) (hb : 0 < beta) (e : ℝ) (he : 0 ≤ e) (g : ℝ → ℂ) (hg : ContDiff ℝ 4 g) :
    ∃ C, 0 ≤ C ∧ ∀ (L N : ℕ) (M : Moments), 0 < N → 2 * N ≤ L → MomentsOk s beta e N g M →
      ∃ gt, wToTau s beta L N M.m1 M.m2 M.m3 (coeff s beta g) = .ok gt ∧ ∀ t, t ≤ L →
        ‖gt t - g (tauOf beta L t)‖ ≤ C * (1 / (N : ℝ) ^ 2) := by
  obtain ⟨C, hC, h⟩ := C115_w_to_tau s beta hb g hg
  refine ⟨C * (1 + e), by positivity, fun L N M hN hL hM => ?_⟩
  obtain ⟨gt, hgt, herr⟩ := h L N M.m1 M.m2 M.m3 hN hL
  refine ⟨gt, hgt, fun t ht => (herr t ht).trans ?_⟩
  have e1 : C * (1 + e) * (1 / (N : ℝ) ^ 2) = C * (1 / (N : ℝ) ^ 2 + e / (N : ℝ) ^ 2) := by ring
  rw [e1]
  refine mul_le_mul_of_nonneg_left ?_ hC
  unfold MomentsOk at hM
  linarith

theorem product_close (a b A B : ℂ) (x y Z : ℝ) (ha : ‖a - A‖ ≤ x) (hb : ‖b - B‖ ≤ y) (hA : ‖A‖ ≤ Z) (hB : ‖B‖ ≤ Z) :
    ‖a * b - A * B‖ ≤ Z * (x + y) + x * y := by
  have e : a * b - A * B = A * (b - B) + (a - A) * B + (a - A) * (b - B) := by ring
  have hx : 0 ≤ x := (norm_nonneg _).trans ha
  have hZ : 0 ≤ Z := (norm_nonneg _).trans hA
  rw [e]
  have p1 : ‖A * (b - B)‖ ≤ Z * y := by rw [norm_mul]; gcongr
  have p2 : ‖(a - A) * B‖ ≤ x * Z := by rw [norm_mul]; gcongr
  have p3 : ‖(a - A) * (b - B)‖ ≤ x * y := by rw [norm_mul]; gcongr
  calc _ ≤ Z * y + x * Z + x * y := (norm_add_le _ _).trans (add_le_add ((norm_add_le _ _).trans (add_le_add p1 p2)) p3)
    _ = _ := by ring

/-- products of two transformed functions -/
theorem product_ok (s1 s2 : Stat) (beta : ℝ) (hb : 0 < beta) (e : ℝ) (he : 0 ≤ e) (A B : ℝ → ℂ) (hA : ContDiff ℝ 4 A)
    (hB : ContDiff ℝ 4 B) :
    ∃ C, 0 ≤ C ∧ ∀ (L N1 N2 : ℕ) (M1 M2 : Moments), 0 < N1 → 0 < N2 → 2 * N1 ≤ L → 2 * N2 ≤ L → MomentsOk s1 beta e N1 A M1 →
      MomentsOk s2 beta e N2 B M2 →
      ∃ a b, wToTau s1 beta L N1 M1.m1 M1.m2 M1.m3 (coeff s1 beta A) = .ok a ∧
        wToTau s2 beta L N2 M2.m1 M2.m2 M2.m3 (coeff s2 beta B) = .ok b ∧ ∀ t t', t ≤ L → t' ≤ L →
          ‖a t * b t' - A (tauOf beta L t) * B (tauOf beta L t')‖ ≤ C * (1 / (N1 : ℝ) ^ 2 + 1 / (N2 : ℝ) ^ 2) := by
  obtain ⟨C1, h1, hC1⟩ := w_to_tau_ok s1 beta hb e he A hA
  obtain ⟨C2, h2, hC2⟩ := w_to_tau_ok s2 beta hb e he B hB
  obtain ⟨Z1, hZ1⟩ := (isCompact_Icc (a := (0 : ℝ)) (b := beta)).exists_bound_of_continuousOn hA.continuous.continuousOn
  obtain ⟨Z2, hZ2⟩ := (isCompact_Icc (a := (0 : ℝ)) (b := beta)).exists_bound_of_continuousOn hB.continuous.continuousOn
  have hZ10 : 0 ≤ Z1 := (norm_nonneg _).trans (hZ1 0 ⟨le_rfl, hb.le⟩)
  have hZ20 : 0 ≤ Z2 := (norm_nonneg _).trans (hZ2 0 ⟨le_rfl, hb.le⟩)
  set Z := Z1 + Z2 with hZ
  refine ⟨Z * (C1 + C2) + C1 * C2, by positivity, fun L N1 N2 M1 M2 hN1 hN2 hL1 hL2 hM1 hM2 => ?_⟩
  obtain ⟨a, ha, hae⟩ := hC1 L N1 M1 hN1 hL1 hM1
  obtain ⟨b, hbb, hbe⟩ := hC2 L N2 M2 hN2 hL2 hM2
  refine ⟨a, b, ha, hbb, fun t t' ht ht' => ?_⟩
  have hLpos : (0 : ℝ) < L := by exact_mod_cast (by omega : 0 < L)
  have hmem : ∀ t, t ≤ L → tauOf beta L t ∈ Set.Icc 0 beta := by
    intro t ht
    constructor
    · rw [tauOf]
      positivity
    · rw [tauOf, div_le_iff₀ hLpos]
      have : (t : ℝ) ≤ L := by exact_mod_cast ht
      gcongr
  refine (product_close _ _ _ _ _ _ Z (hae t ht) (hbe t' ht') ((hZ1 _ (hmem t ht)).trans (by linarith))
    ((hZ2 _ (hmem t' ht')).trans (by linarith))).trans ?_
  set x := 1 / (N1 : ℝ) ^ 2 with hx
  set y := 1 / (N2 : ℝ) ^ 2 with hy
  have hx0 : 0 ≤ x := by positivity
  have hy0 : 0 ≤ y := by positivity
  have hx1 : x ≤ 1 := by
    rw [hx, div_le_one (by positivity)]
    exact one_le_pow₀ (by exact_mod_cast hN1)
  have q1 : C1 * x ≤ C1 * (x + y) := by gcongr; linarith
  have q2 : C2 * y ≤ C2 * (x + y) := by gcongr; linarith
  have q3 : C1 * x * (C2 * y) ≤ C1 * C2 * (x + y) := by
    have : x * y ≤ x + y := by nlinarith
    calc C1 * x * (C2 * y) = C1 * C2 * (x * y) := by ring
      _ ≤ C1 * C2 * (x + y) := by gcongr
  calc Z * (C1 * x + C2 * y) + C1 * x * (C2 * y) ≤ Z * (C1 * (x + y) + C2 * (x + y)) + C1 * C2 * (x + y) := by gcongr
    _ = _ := by ring

/-- C115: two functions are transformed to imaginary time with good moments and multiplied there, one of them at the opposite time;
the transform of the product with fitted moments converges to the Fourier integral of the product. -/
theorem C115_product (s1 s2 s3 : Stat) (beta : ℝ) (hb : 0 < beta) (e : ℝ) (he : 0 ≤ e) (A B : ℝ → ℂ) (hA : ContDiff ℝ 9 A)
    (hB : ContDiff ℝ 9 B) (m : ℤ) :
    ∃ C, 0 ≤ C ∧ ∀ (L N1 N2 N3 : ℕ) (M1 M2 : Moments), 0 < N1 → 0 < N2 → 2 * N1 ≤ L → 2 * N2 ≤ L → 2 * N3 ≤ L → 8 ≤ L →
      MomentsOk s1 beta e N1 A M1 → MomentsOk s2 beta e N2 B M2 →
      ∃ a b x y, wToTau s1 beta L N1 M1.m1 M1.m2 M1.m3 (coeff s1 beta A) = .ok a ∧
        wToTau s2 beta L N2 M2.m1 M2.m2 M2.m3 (coeff s2 beta B) = .ok b ∧
        tauToWFit s3 beta L N3 (fun t => a t * b t) = .ok x ∧ tauToWFit s3 beta L N3 (fun t => a t * b (L - t)) = .ok y ∧
        ‖x m - coeff s3 beta (fun tau => A tau * B tau) m‖ ≤ C * (1 / (N1 : ℝ) ^ 2 + 1 / (N2 : ℝ) ^ 2) ∧
        ‖y m - coeff s3 beta (fun tau => A tau * B (beta - tau)) m‖ ≤ C * (1 / (N1 : ℝ) ^ 2 + 1 / (N2 : ℝ) ^ 2) := by
  have hB' : ContDiff ℝ 9 fun tau => B (beta - tau) := hB.comp (contDiff_const.sub contDiff_id)
  obtain ⟨C0, h0, hC0⟩ := product_ok s1 s2 beta hb e he A B (hA.of_le (by norm_num)) (hB.of_le (by norm_num))
  obtain ⟨C1, h1, hC1⟩ := C115_close s3 beta hb _ (hA.mul hB) m
  obtain ⟨C2, h2, hC2⟩ := C115_close s3 beta hb _ (hA.mul hB') m
  refine ⟨(C1 + C2) * (C0 + 1), by positivity, fun L N1 N2 N3 M1 M2 hN1 hN2 hL1 hL2 hL3 hL8 hM1 hM2 => ?_⟩
  obtain ⟨a, b, ha, hbb, hab⟩ := hC0 L N1 N2 M1 M2 hN1 hN2 hL1 hL2 hM1 hM2
  set δ := 1 / (N1 : ℝ) ^ 2 + 1 / (N2 : ℝ) ^ 2 with hδ
  have hδ0 : 0 ≤ δ := by positivity
  have hLpos : (0 : ℝ) < L := by exact_mod_cast (by omega : 0 < L)
  obtain ⟨x, hx, hxe⟩ := hC1 L N3 (fun t => a t * b t) (C0 * δ) hL8 hL3 fun t ht => hab t t ht ht
  obtain ⟨y, hy, hye⟩ := hC2 L N3 (fun t => a t * b (L - t)) (C0 * δ) hL8 hL3 fun t ht => by
    have h := hab t (L - t) ht (Nat.sub_le _ _)
    have e : tauOf beta L (L - t) = beta - tauOf beta L t := by
      rw [tauOf, tauOf, Nat.cast_sub ht]
      field_simp
    rwa [e] at h
  have hLq : 1 / (L : ℝ) ^ 2 ≤ δ := by
    have hN1' : (0 : ℝ) < N1 := by exact_mod_cast hN1
    have h3 : (N1 : ℝ) ≤ L := by exact_mod_cast (by omega : N1 ≤ L)
    have h4 : 1 / (L : ℝ) ^ 2 ≤ 1 / (N1 : ℝ) ^ 2 := by gcongr
    have h5 : 0 ≤ 1 / (N2 : ℝ) ^ 2 := by positivity
    linarith
  have hsum : C0 * δ + 1 / (L : ℝ) ^ 2 ≤ (C0 + 1) * δ := by rw [add_mul, one_mul]; linarith
  have q : 0 ≤ (C0 + 1) * δ := by positivity
  refine ⟨a, b, x, y, ha, hbb, hx, hy, hxe.trans ?_, hye.trans ?_⟩
  · calc C1 * (C0 * δ + 1 / (L : ℝ) ^ 2) ≤ (C1 + C2) * ((C0 + 1) * δ) :=
        mul_le_mul (by linarith) hsum (by positivity) (by positivity)
      _ = _ := by ring
  · calc C2 * (C0 * δ + 1 / (L : ℝ) ^ 2) ≤ (C1 + C2) * ((C0 + 1) * δ) :=
        mul_le_mul (by linarith) hsum (by positivity) (by positivity)
      _ = _ := by ring

end Verif.Fourier
