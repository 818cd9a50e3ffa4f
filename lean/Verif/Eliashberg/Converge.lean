import Verif.Eliashberg.Fft
import Verif.Gw.Converge
import Mathlib.MeasureTheory.Integral.DominatedConvergence

/-!
# C58: both evaluations of the Eliashberg product in the limit of large meshes

The Fourier route with the transforms of this repository, including the fitted tails, and the explicit sum over the window of the
gap, for a dynamic vertex and an anomalous Green's function that are smooth in imaginary time.
-/

noncomputable section

set_option linter.unusedSectionVars false

namespace Verif.Eliashberg

open Complex Verif.Parallel Verif.Fourier Verif.Bubble Verif.Gw

variable {d : ℕ} {n : Fin d → ℕ} [∀ i, NeZero (n i)] {o : Type} [Fintype o] [DecidableEq o]

/-- the product for exact functions of imaginary time: the dynamic vertex times `F(τ)` transformed to frequencies, plus the constant
vertex times `F(0)` -/
def exactProduct (beta : ℝ) (Gam : ℝ → Lat n → T4 o) (const : Lat n → T4 o) (F : ℝ → Lat n → o → o → ℂ) (w : ℤ) (k : Lat n)
    (a b : o) : ℂ :=
  (∫ tau in (0 : ℝ)..beta, exp (matsubara .fermion beta w * tau)
    * rToK (fun r => ∑ c, ∑ f, -(1 / 2) * realW Gam tau r c a f b * Bse.realSpace F tau r f c) k)
  + rToK (fun r => ∑ c, ∑ f, -(1 / 2) * kToR (fun k => const k c a f b) r * Bse.realSpace F 0 r f c) k

/-! ## Products in time are convolutions in frequency -/

theorem matsubara_sub (beta : ℝ) (w m : ℤ) :
    matsubara .fermion beta w - matsubara .fermion beta m = matsubara .boson beta (w - m) := by
  simp only [matsubara]
  push_cast
  ring

theorem hasSum_of_eq {f g : ℤ → ℂ} {a : ℂ} (h : ∀ m, f m = g m) (hg : HasSum g a) : HasSum f a := by
  rwa [show f = g from funext h]

theorem convolution (beta : ℝ) (hb : 0 < beta) (A B : ℝ → ℂ) (hA : Continuous A) (hB : ContDiff ℝ 2 B) (hj : jump .fermion beta B = 0)
    (w : ℤ) : HasSum (fun m => (1 / beta : ℂ) * (coeff .boson beta A (w - m) * coeff .fermion beta B m))
      (coeff .fermion beta (fun tau => A tau * B tau) w) := by
  have hs := summable_smooth .fermion beta hb B hB hj
  obtain ⟨Z, hZ⟩ := (isCompact_Icc (a := (0 : ℝ)) (b := beta)).exists_bound_of_continuousOn hA.continuousOn
  have hE : ∀ (s : Stat) (m : ℤ), Continuous fun tau : ℝ => exp (matsubara s beta m * tau) := fun s m =>
    (contDiff_phase (n := 2) s beta m).continuous
  have hn : ∀ (s : Stat) (m : ℤ) (tau : ℝ), ‖exp (matsubara s beta m * tau)‖ = 1 := by
    intro s m tau
    have h := norm_phase s beta m (-tau)
    rwa [ofReal_neg, mul_neg, neg_neg] at h
  have key := intervalIntegral.hasSum_integral_of_dominated_convergence (μ := MeasureTheory.volume) (a := 0) (b := beta)
    (F := fun (m : ℤ) (tau : ℝ) => exp (matsubara .boson beta (w - m) * tau) * A tau * ((1 / beta : ℂ) * coeff .fermion beta B m))
    (f := fun tau => exp (matsubara .fermion beta w * tau) * (A tau * B tau))
    (fun m _ => Z * ((1 / beta) * ‖coeff .fermion beta B m‖)) ?_ ?_ ?_ ?_ ?_
  · refine hasSum_of_eq (fun m => ?_) key
    rw [intervalIntegral.integral_mul_const]
    simp only [coeff]
    ring
  · intro m
    exact (((hE .boson (w - m)).mul hA).mul continuous_const).aestronglyMeasurable
  · intro m
    refine Filter.Eventually.of_forall fun tau ht => ?_
    rw [Set.uIoc_of_le hb.le] at ht
    have h1 := hZ tau ⟨ht.1.le, ht.2⟩
    rw [norm_mul, norm_mul, hn, one_mul, norm_mul]
    have e : ‖(1 / beta : ℂ)‖ = 1 / beta := by
      rw [norm_div, norm_one, norm_real, Real.norm_of_nonneg hb.le]
    rw [e]
    exact mul_le_mul_of_nonneg_right h1 (by positivity)
  · exact Filter.Eventually.of_forall fun tau _ => (hs.norm.mul_left _).mul_left _
  · exact intervalIntegrable_const
  · refine Filter.Eventually.of_forall fun tau ht => ?_
    rw [Set.uIoc_of_le hb.le] at ht
    have h1 := hasSum_matsubara .fermion beta hb B hB.continuous hj hs tau ht.1.le ht.2
    have h2 := h1.mul_left (exp (matsubara .fermion beta w * tau) * A tau)
    rw [← mul_assoc]
    refine hasSum_of_eq (fun m => ?_) h2
    rw [← matsubara_sub, sub_mul, sub_eq_add_neg, exp_add]
    ring

theorem value_zero (beta : ℝ) (hb : 0 < beta) (B : ℝ → ℂ) (hB : ContDiff ℝ 2 B) (hj : jump .fermion beta B = 0) :
    HasSum (fun m => (1 / beta : ℂ) * coeff .fermion beta B m) (B 0) := by
  have h1 := hasSum_matsubara .fermion beta hb B hB.continuous hj (summable_smooth .fermion beta hb B hB hj) 0 le_rfl hb.le
  simpa using h1

/-- the terms of the explicit sum: vertex at the difference of the frequencies, coefficients of `F` -/
def sumTerm (beta : ℝ) (Gam : ℝ → Lat n → T4 o) (const : Lat n → T4 o) (F : ℝ → Lat n → o → o → ℂ) (w : ℤ) (k : Lat n) (a b : o)
    (m : ℤ) : ℂ :=
  (∑ q, ∑ c, ∑ f, -(1 / 2) * (coeff .boson beta (fun tau => Gam tau (k - q) c a f b) (w - m) + const (k - q) c a f b)
    * coeff .fermion beta (fun tau => F tau q f c) m) / (beta * Fintype.card (Lat n))

/-- C58: the explicit sum over all frequencies is the product in imaginary time. -/
theorem C58_infinite_sum (beta : ℝ) (hb : 0 < beta) (Gam : ℝ → Lat n → T4 o) (const : Lat n → T4 o) (F : ℝ → Lat n → o → o → ℂ)
    (hG : ∀ k a b c f, Continuous fun tau => Gam tau k a b c f) (hF : ∀ k a b, ContDiff ℝ 2 fun tau => F tau k a b)
    (hj : ∀ k a b, jump .fermion beta (fun tau => F tau k a b) = 0) (w : ℤ) (k : Lat n) (a b : o) :
    HasSum (sumTerm beta Gam const F w k a b) (exactProduct beta Gam const F w k a b) := by
  have e1 : exactProduct beta Gam const F w k a b
      = ∑ c, ∑ f, ∑ q, -(1 / 2) / (Fintype.card (Lat n) : ℂ) * (coeff .fermion beta (fun tau => Gam tau (k - q) c a f b * F tau q f c) w
        + const (k - q) c a f b * F 0 q f c) := by
    have p : ∀ (x y : Lat n → ℂ), rToK (fun r => kToR x r * kToR y r) k = ∑ q, (Fintype.card (Lat n) : ℂ)⁻¹ * (x (k - q) * y q) := by
      intro x y
      rw [rToK_mul, Finset.sum_div, ← Equiv.sum_comp (Equiv.subLeft k)]
      refine Finset.sum_congr rfl fun q _ => ?_
      simp only [Equiv.subLeft_apply, sub_sub_cancel]
      rw [div_eq_inv_mul]
    unfold exactProduct realW Bse.realSpace
    simp only [mul_assoc, rToK_sum, rToK_const_mul, p]
    have q1 : ∀ tau : ℝ, exp (matsubara .fermion beta w * tau) * ∑ c, ∑ f, -(1 / 2) * ∑ q, (Fintype.card (Lat n) : ℂ)⁻¹
        * (Gam tau (k - q) c a f b * F tau q f c)
        = exp (matsubara .fermion beta w * tau) * ∑ x : o × o × Lat n, (-(1 / 2) * (Fintype.card (Lat n) : ℂ)⁻¹)
          * (Gam tau (k - x.2.2) x.1 a x.2.1 b * F tau x.2.2 x.2.1 x.1) := by
      intro tau
      simp only [Fintype.sum_prod_type, Finset.mul_sum, mul_assoc]
    simp only [q1]
    have q2 := coeff_lin Finset.univ .fermion beta (fun _ : o × o × Lat n => (-(1 / 2) * (Fintype.card (Lat n) : ℂ)⁻¹))
      (fun x tau => Gam tau (k - x.2.2) x.1 a x.2.1 b * F tau x.2.2 x.2.1 x.1)
      (fun x _ => (hG _ _ _ _ _).mul (hF _ _ _).continuous) w
    rw [coeff] at q2
    rw [q2]
    simp only [Fintype.sum_prod_type, ← Finset.sum_add_distrib, Finset.mul_sum]
    refine Finset.sum_congr rfl fun c _ => Finset.sum_congr rfl fun f _ => Finset.sum_congr rfl fun q _ => ?_
    ring
  rw [e1]
  have h : ∀ c f q, HasSum (fun m => -(1 / 2) / (Fintype.card (Lat n) : ℂ)
      * ((1 / beta : ℂ) * (coeff .boson beta (fun tau => Gam tau (k - q) c a f b) (w - m) * coeff .fermion beta (fun tau => F tau q f c) m)
        + const (k - q) c a f b * ((1 / beta : ℂ) * coeff .fermion beta (fun tau => F tau q f c) m)))
      (-(1 / 2) / (Fintype.card (Lat n) : ℂ) * (coeff .fermion beta (fun tau => Gam tau (k - q) c a f b * F tau q f c) w
        + const (k - q) c a f b * F 0 q f c)) := fun c f q =>
    ((convolution beta hb _ _ (hG (k - q) c a f b) (hF q f c) (hj q f c) w).add
      ((value_zero beta hb _ (hF q f c) (hj q f c)).mul_left _)).mul_left _
  have h2 := hasSum_sum (s := Finset.univ) fun c _ => hasSum_sum (s := Finset.univ) fun f _ => hasSum_sum (s := Finset.univ)
    fun q _ => h c f q
  refine hasSum_of_eq (fun m => ?_) h2
  unfold sumTerm
  have e2 : ∑ q, ∑ c, ∑ f, -(1 / 2) * (coeff .boson beta (fun tau => Gam tau (k - q) c a f b) (w - m) + const (k - q) c a f b)
      * coeff .fermion beta (fun tau => F tau q f c) m
      = ∑ c, ∑ f, ∑ q, -(1 / 2) * (coeff .boson beta (fun tau => Gam tau (k - q) c a f b) (w - m) + const (k - q) c a f b)
      * coeff .fermion beta (fun tau => F tau q f c) m := by
    rw [Finset.sum_comm]
    exact Finset.sum_congr rfl fun c _ => Finset.sum_comm
  rw [e2]
  simp only [Finset.sum_div]
  refine Finset.sum_congr rfl fun c _ => Finset.sum_congr rfl fun f _ => Finset.sum_congr rfl fun q _ => ?_
  rw [div_eq_mul_inv, mul_inv]
  ring

/-! ## The explicit sum -/

theorem tendsto_window : Filter.Tendsto window Filter.atTop Filter.atTop := by
  refine Filter.tendsto_atTop_finset_of_monotone (fun a b h => Finset.Ico_subset_Ico (by omega) (by omega)) fun x => ⟨x.natAbs + 1, ?_⟩
  simp only [Finset.mem_Ico]
  omega

/-- the input of both routes: a gap whose product with the Green's functions has the coefficients of `F` on the mesh of the gap -/
def PairData (beta : ℝ) (F : ℝ → Lat n → o → o → ℂ) (N : ℕ) (g delta : ℤ → Lat n → o → o → ℂ) : Prop :=
  ∀ m ∈ window N, ∀ k a b,
    ∑ e, ∑ f, g m k b f * (starRingEnd ℂ) (g m (-k) e a) * delta m k e f = coeff .fermion beta (fun tau => F tau k a b) m

/-- C58: the explicit sum tends to the exact product when the mesh of the gap grows. -/
theorem C58_sum_limit (beta : ℝ) (hb : 0 < beta) (Gam : ℝ → Lat n → T4 o) (const : Lat n → T4 o) (F : ℝ → Lat n → o → o → ℂ)
    (hG : ∀ k a b c f, Continuous fun tau => Gam tau k a b c f) (hF : ∀ k a b, ContDiff ℝ 2 fun tau => F tau k a b)
    (hj : ∀ k a b, jump .fermion beta (fun tau => F tau k a b) = 0) (w : ℤ) (k : Lat n) (a b : o) (eps : ℝ) (heps : 0 < eps) :
    ∃ N0, ∀ (ranks N Ng NG : ℕ) (lat : List (Lat n)) (gamma : ℤ → Lat n → T4 o) (g delta : ℤ → Lat n → o → o → ℂ),
      N0 ≤ N → 0 < ranks → Complete lat → N ≤ Ng → 4 * N ≤ 2 * NG - 1 → PairData beta F N g delta →
      (∀ l : ℤ, |l| < NG → ∀ q a b c f, gamma l q a b c f = coeff .boson beta (fun tau => Gam tau q a b c f) l + const q a b c f) →
      ∃ out, eliashbergProduct ranks N Ng NG beta lat gamma g delta = .ok out ∧
        ‖out w k a b - exactProduct beta Gam const F w k a b‖ ≤ eps := by
  have h := (C58_infinite_sum beta hb Gam const F hG hF hj w k a b).comp tendsto_window
  obtain ⟨N0, hN0⟩ := (Metric.tendsto_atTop.1 h) eps heps
  refine ⟨max N0 (w.natAbs + 1), fun ranks N Ng NG lat gamma g delta hN hr hc hg hGam hP hdata => ⟨_,
    eliashbergProduct_ok hr hg hGam beta hc gamma g delta, ?_⟩⟩
  have h1 := hN0 N (le_trans (le_max_left _ _) hN)
  have hw : w.natAbs + 1 ≤ N := le_trans (le_max_right _ _) hN
  rw [dist_eq_norm] at h1
  refine le_trans (le_of_eq ?_) h1.le
  congr 2
  simp only [Function.comp, sumTerm, sumValue]
  rw [← Finset.sum_div]
  congr 1
  refine Finset.sum_congr rfl fun m hm => Finset.sum_congr rfl fun q _ => ?_
  unfold gammaF
  refine Finset.sum_congr rfl fun c _ => Finset.sum_congr rfl fun f _ => ?_
  have hm' := Finset.mem_Ico.1 hm
  rw [hdata (w - m) (by rw [abs_lt]; omega), ← hP m hm q f c]
  rfl

/-! ## The Fourier route -/

/-- the Fourier route applied to the Matsubara coefficients of `Gam` and `F`, with the transforms of this repository -/
structure FftRoute (beta e : ℝ) (Gam : ℝ → Lat n → T4 o) (F : ℝ → Lat n → o → o → ℂ) (ranks N Ng NG L : ℕ) (T : Transforms)
    (gT : (ℤ → ℂ) → ℕ → ℂ) (fitF fitG : (ℤ → ℂ) → Moments) (lat : List (Lat n)) (dyn : ℤ → Lat n → T4 o)
    (g delta : ℤ → Lat n → o → o → ℂ) : Prop where
  ranks : 0 < ranks
  complete : Complete lat
  pos : 0 < N
  posG : 0 < NG
  green : N ≤ Ng
  long : 2 * N ≤ L
  longG : 2 * NG ≤ L
  nine : 8 ≤ L
  pair : PairData beta F N g delta
  vertex : ∀ l ∈ wIndices .boson NG, ∀ q a b c f, dyn l q a b c f = coeff .boson beta (fun tau => Gam tau q a b c f) l
  toTau : T.toTau = toTauFit .fermion beta L N fitF
  toFreq : T.toFreq = toFreqFit .fermion beta L N
  gToTau : gT = toTauFit .boson beta L NG fitG
  momentsF : ∀ r a b y, (∀ m ∈ window N, y m = coeff .fermion beta (fun tau => Bse.realSpace F tau r a b) m) →
    MomentsOk .fermion beta e N (fun tau => Bse.realSpace F tau r a b) (fitF y)
  momentsG : ∀ r a b c f y, (∀ m ∈ wIndices .boson NG, y m = coeff .boson beta (fun tau => realW Gam tau r a b c f) m) →
    MomentsOk .boson beta e NG (fun tau => realW Gam tau r a b c f) (fitG y)

/-- the transformed vertex and the transformed product, with the error of their product -/
theorem factors_close (beta : ℝ) (hb : 0 < beta) (e : ℝ) (he : 0 ≤ e) (Gam : ℝ → Lat n → T4 o) (F : ℝ → Lat n → o → o → ℂ)
    (hG : ∀ k a b c f, ContDiff ℝ 9 fun tau => Gam tau k a b c f) (hF : ∀ k a b, ContDiff ℝ 9 fun tau => F tau k a b) (r : Lat n)
    (a b : o) :
    ∃ C, 0 ≤ C ∧ ∀ (ranks N Ng NG L : ℕ) (T : Transforms) (gT : (ℤ → ℂ) → ℕ → ℂ) (fitF fitG : (ℤ → ℂ) → Moments) (lat : List (Lat n))
      (dyn : ℤ → Lat n → T4 o) (g delta : ℤ → Lat n → o → o → ℂ) (X : ℤ × Lat n → o → o → ℂ),
      FftRoute beta e Gam F ranks N Ng NG L T gT fitF fitG lat dyn g delta → (∀ m ∈ window N, ∀ k, X (m, k) = pairF g delta m k) →
      ∀ t ≤ L, ‖gammaF (fun a b c d => gT (fun w => kToR (dyn w) r a b c d) t) (fTr T X t r) a b
        - ∑ c, ∑ f, -(1 / 2) * realW Gam (tauOf beta L t) r c a f b * Bse.realSpace F (tauOf beta L t) r f c‖
          ≤ C * (1 / (NG : ℝ) ^ 2 + 1 / (N : ℝ) ^ 2) := by
  have hsG : ∀ r a b c f, ContDiff ℝ 9 fun tau => realW Gam tau r a b c f := fun r a b c f =>
    contDiff_kToR _ (fun k => hG k a b c f) r
  have hsF : ∀ r a b, ContDiff ℝ 9 fun tau => Bse.realSpace F tau r a b := fun r a b => contDiff_kToR _ (fun k => hF k a b) r
  choose C hC h using fun x : o × o => product_ok .boson .fermion beta hb e he _ _
    ((hsG r x.1 a x.2 b).of_le (by norm_num : (4 : WithTop ℕ∞) ≤ 9)) ((hsF r x.2 x.1).of_le (by norm_num : (4 : WithTop ℕ∞) ≤ 9))
  refine ⟨∑ c, ∑ f, C (c, f), Finset.sum_nonneg fun c _ => Finset.sum_nonneg fun f _ => hC (c, f),
    fun ranks N Ng NG L T gT fitF fitG lat dyn g delta X hp hX t ht => ?_⟩
  unfold gammaF
  simp only [← Finset.sum_sub_distrib]
  rw [Finset.sum_mul]
  refine (norm_sum_le _ _).trans (Finset.sum_le_sum fun c _ => ?_)
  rw [Finset.sum_mul]
  refine (norm_sum_le _ _).trans (Finset.sum_le_sum fun f _ => ?_)
  have dG : ∀ l ∈ wIndices .boson NG, kToR (dyn l) r c a f b = coeff .boson beta (fun tau => realW Gam tau r c a f b) l := by
    intro l hl
    unfold realW
    rw [kToR_apply4, coeff_kToR .boson beta (fun tau k => Gam tau k c a f b) fun k => (hG k c a f b).continuous]
    simp only [hp.vertex l hl]
  have dF : ∀ m ∈ window N, kToR (fun k => X (m, k)) r f c = coeff .fermion beta (fun tau => Bse.realSpace F tau r f c) m := by
    intro m hm
    unfold Bse.realSpace
    rw [kToR_apply2, coeff_kToR .fermion beta (fun tau k => F tau k f c) fun k => (hF k f c).continuous]
    refine congrArg (fun y => kToR y r) (funext fun k => ?_)
    rw [hX m hm, ← hp.pair m hm k f c]
    rfl
  obtain ⟨x, y, hx, hy, hxy⟩ := h (c, f) L NG N _ _ hp.posG hp.pos hp.longG hp.long (hp.momentsG r c a f b _ dG)
    (hp.momentsF r f c _ dF)
  have ex : gT (fun w => kToR (dyn w) r c a f b) t = x t := by
    rw [hp.gToTau, toTauFit, wToTau_congr _ _ _ _ _ _ _ _ _ dG, hx]
    rfl
  have ey : fTr T X t r f c = y t := by
    rw [fTr, hp.toTau, toTauFit,
      wToTau_congr _ _ _ _ _ _ _ _ _ fun m hm => dF m ((mem_wIndices_fermion N m).1 hm), hy]
    rfl
  rw [ex, ey]
  have e2 : -(1 / 2) * x t * y t - -(1 / 2) * realW Gam (tauOf beta L t) r c a f b * Bse.realSpace F (tauOf beta L t) r f c
      = -(1 / 2) * (x t * y t - realW Gam (tauOf beta L t) r c a f b * Bse.realSpace F (tauOf beta L t) r f c) := by ring
  rw [e2, norm_mul]
  have e3 : ‖(-(1 / 2) : ℂ)‖ ≤ 1 := by
    rw [norm_neg, norm_div, norm_one, Complex.norm_ofNat]
    norm_num
  calc _ ≤ 1 * ‖x t * y t - realW Gam (tauOf beta L t) r c a f b * Bse.realSpace F (tauOf beta L t) r f c‖ :=
        mul_le_mul_of_nonneg_right e3 (norm_nonneg _)
    _ ≤ _ := by
      rw [one_mul]
      exact hxy t t ht ht

/-- the constant vertex times the value at the first time -/
theorem constant_close (beta : ℝ) (hb : 0 < beta) (e : ℝ) (he : 0 ≤ e) (Gam : ℝ → Lat n → T4 o) (const : Lat n → T4 o)
    (F : ℝ → Lat n → o → o → ℂ) (hF : ∀ k a b, ContDiff ℝ 9 fun tau => F tau k a b) (r : Lat n) (a b : o) :
    ∃ C, 0 ≤ C ∧ ∀ (ranks N Ng NG L : ℕ) (T : Transforms) (gT : (ℤ → ℂ) → ℕ → ℂ) (fitF fitG : (ℤ → ℂ) → Moments) (lat : List (Lat n))
      (dyn : ℤ → Lat n → T4 o) (g delta : ℤ → Lat n → o → o → ℂ) (X : ℤ × Lat n → o → o → ℂ),
      FftRoute beta e Gam F ranks N Ng NG L T gT fitF fitG lat dyn g delta → (∀ m ∈ window N, ∀ k, X (m, k) = pairF g delta m k) →
      ‖constantGammaF (kToR const) (fTr T X) r a b
        - ∑ c, ∑ f, -(1 / 2) * kToR (fun k => const k c a f b) r * Bse.realSpace F 0 r f c‖ ≤ C * (1 / (N : ℝ) ^ 2) := by
  have hsF : ∀ r a b, ContDiff ℝ 9 fun tau => Bse.realSpace F tau r a b := fun r a b => contDiff_kToR _ (fun k => hF k a b) r
  choose C hC h using fun x : o × o => w_to_tau_ok .fermion beta hb e he _ ((hsF r x.2 x.1).of_le (by norm_num : (4 : WithTop ℕ∞) ≤ 9))
  refine ⟨∑ c, ∑ f, ‖-(1 / 2) * kToR (fun k => const k c a f b) r‖ * C (c, f),
    Finset.sum_nonneg fun c _ => Finset.sum_nonneg fun f _ => mul_nonneg (norm_nonneg _) (hC (c, f)),
    fun ranks N Ng NG L T gT fitF fitG lat dyn g delta X hp hX => ?_⟩
  unfold constantGammaF gammaF
  simp only [← Finset.sum_sub_distrib, kToR_apply4]
  rw [Finset.sum_mul]
  refine (norm_sum_le _ _).trans (Finset.sum_le_sum fun c _ => ?_)
  rw [Finset.sum_mul]
  refine (norm_sum_le _ _).trans (Finset.sum_le_sum fun f _ => ?_)
  have dF : ∀ m ∈ window N, kToR (fun k => X (m, k)) r f c = coeff .fermion beta (fun tau => Bse.realSpace F tau r f c) m := by
    intro m hm
    unfold Bse.realSpace
    rw [kToR_apply2, coeff_kToR .fermion beta (fun tau k => F tau k f c) fun k => (hF k f c).continuous]
    refine congrArg (fun y => kToR y r) (funext fun k => ?_)
    rw [hX m hm, ← hp.pair m hm k f c]
    rfl
  obtain ⟨y, hy, hval⟩ := h (c, f) L N _ hp.pos hp.long (hp.momentsF r f c _ dF)
  have ey : fTr T X 0 r f c = y 0 := by
    rw [fTr, hp.toTau, toTauFit,
      wToTau_congr _ _ _ _ _ _ _ _ _ fun m hm => dF m ((mem_wIndices_fermion N m).1 hm), hy]
    rfl
  have h0 := hval 0 (Nat.zero_le _)
  rw [show tauOf beta L 0 = 0 by simp [tauOf]] at h0
  rw [ey, ← mul_sub, norm_mul, mul_assoc]
  exact mul_le_mul_of_nonneg_left h0 (norm_nonneg _)

/-- C58: the Fourier route with the transforms of this repository is within `C (1/NG² + 1/N²)` of the exact product. -/
theorem C58_fft_limit (beta : ℝ) (hb : 0 < beta) (e : ℝ) (he : 0 ≤ e) (Gam : ℝ → Lat n → T4 o) (const : Lat n → T4 o)
    (F : ℝ → Lat n → o → o → ℂ) (hG : ∀ k a b c f, ContDiff ℝ 9 fun tau => Gam tau k a b c f)
    (hF : ∀ k a b, ContDiff ℝ 9 fun tau => F tau k a b) (w : ℤ) (k : Lat n) (a b : o) :
    ∃ C, 0 ≤ C ∧ ∀ (ranks N Ng NG L : ℕ) (T : Transforms) (gT : (ℤ → ℂ) → ℕ → ℂ) (fitF fitG : (ℤ → ℂ) → Moments) (lat : List (Lat n))
      (dyn : ℤ → Lat n → T4 o) (g delta : ℤ → Lat n → o → o → ℂ),
      FftRoute beta e Gam F ranks N Ng NG L T gT fitF fitG lat dyn g delta →
      ∃ out, eliashbergProductFFT ranks N Ng L L T lat (dynamicAndConstantToTr gT dyn const).1
          (dynamicAndConstantToTr gT dyn const).2 g delta = .ok out ∧
        ‖out w k a b - exactProduct beta Gam const F w k a b‖ ≤ C * (1 / (NG : ℝ) ^ 2 + 1 / (N : ℝ) ^ 2) := by
  have hsG : ∀ r a b c f, ContDiff ℝ 9 fun tau => realW Gam tau r a b c f := fun r a b c f =>
    contDiff_kToR _ (fun k => hG k a b c f) r
  have hsF : ∀ r a b, ContDiff ℝ 9 fun tau => Bse.realSpace F tau r a b := fun r a b => contDiff_kToR _ (fun k => hF k a b) r
  have hP : ∀ r, ContDiff ℝ 9 fun tau => ∑ c, ∑ f, -(1 / 2) * realW Gam tau r c a f b * Bse.realSpace F tau r f c := fun r =>
    ContDiff.sum fun c _ => ContDiff.sum fun f _ => (contDiff_const.mul (hsG r c a f b)).mul (hsF r f c)
  have hex : exactProduct beta Gam const F w k a b
      = rToK (fun r => coeff .fermion beta (fun tau => ∑ c, ∑ f, -(1 / 2) * realW Gam tau r c a f b * Bse.realSpace F tau r f c) w
        + ∑ c, ∑ f, -(1 / 2) * kToR (fun k => const k c a f b) r * Bse.realSpace F 0 r f c) k := by
    have h1 := coeff_rToK .fermion beta (fun tau r => ∑ c, ∑ f, -(1 / 2) * realW Gam tau r c a f b * Bse.realSpace F tau r f c)
      (fun r => (hP r).continuous) k w
    rw [coeff] at h1
    rw [exactProduct, h1]
    simp only [rToK_weights, mul_add, Finset.sum_add_distrib]
  choose C1 hC1 h1 using fun r => factors_close beta hb e he Gam F hG hF r a b
  choose C2 hC2 h2 using fun r => C115_close .fermion beta hb _ (hP r) w
  choose C3 hC3 h3 using fun r => constant_close beta hb e he Gam const F hF r a b
  refine ⟨∑ r, (C2 r * (C1 r + 1) + C3 r), Finset.sum_nonneg fun r _ => ?_,
    fun ranks N Ng NG L T gT fitF fitG lat dyn g delta hp => ?_⟩
  · have := hC1 r
    have := hC2 r
    have := hC3 r
    positivity
  obtain ⟨X, hX, hval⟩ := gDeltaG_ok hp.ranks hp.green hp.complete g delta
  refine ⟨_, by simp only [eliashbergProductFFT, hX, dynamicGammaF, ne_eq, not_true_eq_false, if_false]; exact rfl, ?_⟩
  have hNpos : (0 : ℝ) < N := by exact_mod_cast hp.pos
  have hLq : 1 / (L : ℝ) ^ 2 ≤ 1 / (N : ℝ) ^ 2 := by
    have h3 : (N : ℝ) ≤ L := by exact_mod_cast (by have := hp.long; omega : N ≤ L)
    gcongr
  rw [hex, rToK_apply2, rToK_sub', Finset.sum_mul]
  refine norm_rToK_le _ _ _ fun r => ?_
  have hnd : ((List.range (L + 1)).product lat).Nodup := List.nodup_range.product hp.complete.1
  set x : ℕ → ℂ := fun t => distributedAssign ranks ((List.range (L + 1)).product lat)
    (fun p : ℕ × Lat n => gammaF ((dynamicAndConstantToTr gT dyn const).1 p.1 p.2) (fTr T X p.1 p.2)) (t, r) a b with hx
  have hxv : ∀ t ≤ L, x t = gammaF (fun a b c d => gT (fun w => kToR (dyn w) r a b c d) t) (fTr T X t r) a b := by
    intro t ht
    have hmem : (t, r) ∈ (List.range (L + 1)).product lat :=
      List.mem_product.2 ⟨List.mem_range.2 (by omega), hp.complete.2 r⟩
    rw [hx]
    dsimp only
    rw [C02_distributedAssign _ hp.ranks _ hnd, if_pos hmem]
    rfl
  obtain ⟨xw, hxw, h4⟩ := h2 r L N x _ hp.nine hp.long fun t ht => by
    rw [hxv t ht]
    exact h1 r ranks N Ng NG L T gT fitF fitG lat dyn g delta X hp hval t ht
  have e4 : T.toFreq x w = xw w := by
    rw [hp.toFreq, toFreqFit, hxw]
    rfl
  rw [e4]
  have h5 := h3 r ranks N Ng NG L T gT fitF fitG lat dyn g delta X hp hval
  have c1 := hC1 r
  have c2 := hC2 r
  have c3 := hC3 r
  have hG0 : 0 ≤ 1 / (NG : ℝ) ^ 2 := by positivity
  have q1 : C2 r * (C1 r * (1 / (NG : ℝ) ^ 2 + 1 / (N : ℝ) ^ 2) + 1 / (L : ℝ) ^ 2)
      ≤ C2 r * ((C1 r + 1) * (1 / (NG : ℝ) ^ 2 + 1 / (N : ℝ) ^ 2)) := by
    refine mul_le_mul_of_nonneg_left ?_ c2
    rw [add_mul, one_mul]
    linarith
  have q2 : C3 r * (1 / (N : ℝ) ^ 2) ≤ C3 r * (1 / (NG : ℝ) ^ 2 + 1 / (N : ℝ) ^ 2) :=
    mul_le_mul_of_nonneg_left (by linarith) c3
  have q3 : ∀ p q p' q' : ℂ, p + q - (p' + q') = (p - p') + (q - q') := fun p q p' q' => by ring
  rw [q3]
  refine (norm_add_le _ _).trans ?_
  have q4 : (C2 r * (C1 r + 1) + C3 r) * (1 / (NG : ℝ) ^ 2 + 1 / (N : ℝ) ^ 2)
      = C2 r * ((C1 r + 1) * (1 / (NG : ℝ) ^ 2 + 1 / (N : ℝ) ^ 2)) + C3 r * (1 / (NG : ℝ) ^ 2 + 1 / (N : ℝ) ^ 2) := by ring
  rw [q4]
  exact add_le_add (h4.trans q1) (h5.trans q2)

/-- C58: both routes agree in the limit of large meshes. -/
theorem C58_limit (beta : ℝ) (hb : 0 < beta) (e : ℝ) (he : 0 ≤ e) (Gam : ℝ → Lat n → T4 o) (const : Lat n → T4 o)
    (F : ℝ → Lat n → o → o → ℂ) (hG : ∀ k a b c f, ContDiff ℝ 9 fun tau => Gam tau k a b c f)
    (hF : ∀ k a b, ContDiff ℝ 9 fun tau => F tau k a b) (hj : ∀ k a b, jump .fermion beta (fun tau => F tau k a b) = 0)
    (w : ℤ) (k : Lat n) (a b : o) (eps : ℝ) (heps : 0 < eps) :
    ∃ N0, ∀ (ranks N Ng NG L : ℕ) (T : Transforms) (gT : (ℤ → ℂ) → ℕ → ℂ) (fitF fitG : (ℤ → ℂ) → Moments) (lat : List (Lat n))
      (dyn : ℤ → Lat n → T4 o) (g delta : ℤ → Lat n → o → o → ℂ) (ranks' NG' : ℕ) (lat' : List (Lat n)) (gamma : ℤ → Lat n → T4 o),
      N0 ≤ N → N0 ≤ NG → FftRoute beta e Gam F ranks N Ng NG L T gT fitF fitG lat dyn g delta →
      0 < ranks' → Complete lat' → 4 * N ≤ 2 * NG' - 1 →
      (∀ l : ℤ, |l| < NG' → ∀ q a b c f, gamma l q a b c f = coeff .boson beta (fun tau => Gam tau q a b c f) l + const q a b c f) →
      ∃ u v, eliashbergProduct ranks' N Ng NG' beta lat' gamma g delta = .ok u ∧
        eliashbergProductFFT ranks N Ng L L T lat (dynamicAndConstantToTr gT dyn const).1
          (dynamicAndConstantToTr gT dyn const).2 g delta = .ok v ∧ ‖u w k a b - v w k a b‖ ≤ eps := by
  obtain ⟨N1, h1⟩ := C58_sum_limit beta hb Gam const F (fun k a b c f => (hG k a b c f).continuous)
    (fun k a b => (hF k a b).of_le (by norm_num)) hj w k a b (eps / 2) (by positivity)
  obtain ⟨C, hC, h2⟩ := C58_fft_limit beta hb e he Gam const F hG hF w k a b
  obtain ⟨N2, hN2⟩ := exists_nat_gt (4 * C / eps + 1)
  refine ⟨max N1 N2, fun ranks N Ng NG L T gT fitF fitG lat dyn g delta ranks' NG' lat' gamma hN hNG hp hr' hc' hG' hgam => ?_⟩
  obtain ⟨u, hu, hu2⟩ := h1 ranks' N Ng NG' lat' gamma g delta ((le_max_left _ _).trans hN) hr' hc' hp.green hG' hp.pair hgam
  obtain ⟨v, hv, hv2⟩ := h2 ranks N Ng NG L T gT fitF fitG lat dyn g delta hp
  refine ⟨u, v, hu, hv, ?_⟩
  have hsq : ∀ M : ℕ, N2 ≤ M → C * (1 / (M : ℝ) ^ 2) ≤ eps / 4 := by
    intro M hM
    have hM' : (N2 : ℝ) ≤ M := by exact_mod_cast hM
    have hq : 0 ≤ 4 * C / eps := by positivity
    have hM1 : 1 ≤ (M : ℝ) := by linarith
    have hM2 : 4 * C / eps ≤ M := by linarith
    rw [div_le_iff₀ heps] at hM2
    rw [mul_one_div, div_le_iff₀ (by positivity)]
    nlinarith
  have a1 := hsq N ((le_max_right _ _).trans hN)
  have a2 := hsq NG ((le_max_right _ _).trans hNG)
  have e1 : u w k a b - v w k a b
      = (u w k a b - exactProduct beta Gam const F w k a b) - (v w k a b - exactProduct beta Gam const F w k a b) := by ring
  rw [e1]
  refine (norm_sub_le _ _).trans ?_
  rw [mul_add] at hv2
  linarith

/-! ## An example -/

/-- the anomalous Green's function of a level at the Fermi energy with a constant gap -/
def levelPair (beta : ℝ) : ℝ → Lat (fun _ : Fin 1 => 1) → Unit → Unit → ℂ := fun tau _ _ _ => (beta / 4 : ℂ) - tau / 2

theorem levelPair_jump (beta : ℝ) : jump .fermion beta (fun tau => levelPair beta tau 0 () ()) = 0 := by
  simp only [jump, levelPair, boundarySign]
  push_cast
  ring

theorem levelPair_coeff (beta : ℝ) (hb : 0 < beta) (m : ℤ) :
    coeff .fermion beta (fun tau => levelPair beta tau 0 () ()) m = -(1 / matsubara .fermion beta m ^ 2) := by
  have hm : matsubara .fermion beta m ≠ 0 := by
    simp only [matsubara]
    have h1 : (2 * m + 1 : ℂ) ≠ 0 := by exact_mod_cast (by omega : (2 * m + 1 : ℤ) ≠ 0)
    have h2 : (beta : ℂ) ≠ 0 := by exact_mod_cast hb.ne'
    have h3 : (Real.pi : ℂ) ≠ 0 := by exact_mod_cast Real.pi_ne_zero
    simp [h1, h2, h3]
  have h1 := coeff_parts .fermion beta hb (fun tau => levelPair beta tau 0 () ()) (fun _ => -(1 / 2))
    (fun x => by
      have h := ((hasDerivAt_const x (beta / 4 : ℂ)).sub ((Complex.ofRealCLM.hasDerivAt (x := x)).div_const 2))
      have e : (0 : ℂ) - ofRealCLM 1 / 2 = -(1 / 2) := by simp
      rw [e] at h
      exact h) continuous_const m hm
  have h2 := coeff_parts .fermion beta hb (fun _ => -(1 / 2)) (fun _ => 0) (fun x => hasDerivAt_const x _) continuous_const m hm
  rw [h1, levelPair_jump, h2]
  have h3 : coeff .fermion beta (fun _ => 0) m = 0 := by simp [coeff]
  rw [h3]
  simp only [jump, boundarySign]
  field_simp
  ring

/-- the hypotheses of `C58_limit` hold for all meshes of this level with a phonon mediated vertex -/
example (x beta : ℝ) (hb : 0 < beta) (N : ℕ) (hN : 0 < N) :
    FftRoute beta 0 (phonon x beta) (levelPair beta) 2 N N N (6 * N + 8)
      ⟨toTauFit .fermion beta (6 * N + 8) N fun _ => exactMoments .fermion beta fun tau => Bse.realSpace (levelPair beta) tau 0 () (),
        toFreqFit .fermion beta (6 * N + 8) N⟩
      (toTauFit .boson beta (6 * N + 8) N fun _ => exactMoments .boson beta fun tau => realW (phonon x beta) tau 0 () () () ())
      (fun _ => exactMoments .fermion beta fun tau => Bse.realSpace (levelPair beta) tau 0 () ())
      (fun _ => exactMoments .boson beta fun tau => realW (phonon x beta) tau 0 () () () ()) [0]
      (fun l q a b c f => coeff .boson beta (fun tau => phonon x beta tau q a b c f) l)
      (fun m _ _ _ => 1 / matsubara .fermion beta m) (fun _ _ _ _ => 1)
    ∧ ∀ k a b, jump .fermion beta (fun tau => levelPair beta tau k a b) = 0 := by
  have hk : ∀ r : Lat (fun _ : Fin 1 => 1), r = 0 := fun r => funext fun i => Subsingleton.elim (r i) 0
  refine ⟨⟨by norm_num, ⟨List.nodup_singleton _, fun r => ?_⟩, hN, hN, le_rfl, by omega, by omega, by omega, ?_,
    fun _ _ _ _ _ _ _ => rfl, rfl, rfl, rfl, fun r _ _ _ _ => ?_, fun r _ _ _ _ _ _ => ?_⟩, fun k _ _ => levelPair_jump beta⟩
  · rw [hk r]
    exact List.mem_singleton_self _
  · intro m _ k a b
    have h := levelPair_coeff beta hb m
    refine Eq.trans ?_ h.symm
    have hc : (starRingEnd ℂ) (matsubara .fermion beta m) = -matsubara .fermion beta m := by
      simp only [matsubara]
      simp [Complex.conj_ofNat]
    simp only [Finset.univ_unique, Finset.sum_singleton, map_div₀, map_one, hc, mul_one]
    rw [div_neg, mul_neg, one_div_mul_one_div, pow_two]
  · rw [hk r]
    simp [MomentsOk]
  · rw [hk r]
    simp [MomentsOk]

end Verif.Eliashberg
