import Verif.Fourier.Stable

/-!
# Transforms in time and space

Lemmas for routines that go to lattice vectors and imaginary time and back.
-/

noncomputable section

set_option linter.unusedSectionVars false

namespace Verif.Fourier

open Complex

variable {d : ℕ} {n : Fin d → ℕ} [∀ i, NeZero (n i)]

/-- result of a transform that passed its checks -/
def okOr {X : Type} (x : Except String (X → ℂ)) : X → ℂ := match x with
  | .ok f => f
  | .error _ => fun _ => 0

/-- One lattice vector and component of `fourier_wr_to_tr_general_target`, `/repo/c++/triqs_tprf/lattice/fourier.hpp:98-128`, with
`/repo/c++/triqs_tprf/fourier/fourier_matsubara.cpp:218-308`; the moments come from the fit of the tail (TRIQS), `fit`. -/
def toTauFit (s : Stat) (beta : ℝ) (L N : ℕ) (fit : (ℤ → ℂ) → Moments) (y : ℤ → ℂ) : ℕ → ℂ :=
  okOr (wToTau s beta L N (fit y).m1 (fit y).m2 (fit y).m3 y)

/-- One lattice vector and component of `fourier_tr_to_wr_general_target`, `/repo/c++/triqs_tprf/lattice/fourier.hpp:130-163`, with
`/repo/c++/triqs_tprf/fourier/fourier_matsubara.cpp:101-184`. -/
def toFreqFit (s : Stat) (beta : ℝ) (L N : ℕ) (x : ℕ → ℂ) : ℤ → ℂ := okOr (tauToWFit s beta L N x)

theorem wToTau_congr (s : Stat) (beta : ℝ) (L N : ℕ) (m1 m2 m3 : ℂ) (y z : ℤ → ℂ) (h : ∀ m ∈ wIndices s N, y m = z m) :
    wToTau s beta L N m1 m2 m3 y = wToTau s beta L N m1 m2 m3 z := by
  have key : ∀ (l : List ℤ) (acc : ℕ → ℂ), (∀ m ∈ l, y m = z m) →
      l.foldl (ginStore s beta L m1 m2 m3 y) acc = l.foldl (ginStore s beta L m1 m2 m3 z) acc := by
    intro l
    induction l with
    | nil => intros; rfl
    | cons x t ih =>
      intro acc hl
      rw [List.foldl_cons, List.foldl_cons, ih _ fun m hm => hl m (List.mem_cons_of_mem _ hm)]
      congr 1
      unfold ginStore
      rw [hl x (by simp)]
  unfold wToTau
  rw [key _ _ h]

/-! ## Linear combinations -/

theorem coeff_lin {ι : Type} (S : Finset ι) (s : Stat) (beta : ℝ) (c : ι → ℂ) (f : ι → ℝ → ℂ) (hf : ∀ i ∈ S, Continuous (f i))
    (m : ℤ) : coeff s beta (fun tau => ∑ i ∈ S, c i * f i tau) m = ∑ i ∈ S, c i * coeff s beta (f i) m := by
  have hE : Continuous fun tau : ℝ => exp (matsubara s beta m * tau) := (contDiff_phase (n := 2) s beta m).continuous
  unfold coeff
  simp only [Finset.mul_sum]
  rw [intervalIntegral.integral_finsetSum]
  · refine Finset.sum_congr rfl fun i _ => ?_
    rw [← intervalIntegral.integral_const_mul]
    congr 1
    funext tau
    ring
  · intro i hi
    have h : Continuous fun tau : ℝ => exp (matsubara s beta m * tau) * (c i * f i tau) := hE.mul (continuous_const.mul (hf i hi))
    exact h.intervalIntegrable _ _

/-- weight of a momentum in the transform to lattice vectors -/
def wKR (n : Fin d → ℕ) [∀ i, NeZero (n i)] (r k : Lat n) : ℂ :=
  (Fintype.card (Lat n) : ℂ)⁻¹ * exp (((-1 : ℤ) : ℂ) * (2 * Real.pi * I * ∑ i, ((k i).val * (r i).val : ℂ) / n i))

/-- weight of a lattice vector in the transform to momenta -/
def wRK (n : Fin d → ℕ) [∀ i, NeZero (n i)] (k r : Lat n) : ℂ :=
  exp (((1 : ℤ) : ℂ) * (2 * Real.pi * I * ∑ i, ((r i).val * (k i).val : ℂ) / n i))

theorem kToR_weights (f : Lat n → ℂ) (r : Lat n) : kToR f r = ∑ k, wKR n r k * f k := by
  simp only [kToR, fftw, wKR, smul_eq_mul, Finset.mul_sum, mul_assoc]

theorem rToK_weights (f : Lat n → ℂ) (k : Lat n) : rToK f k = ∑ r, wRK n k r * f r := by
  simp only [rToK, fftw, wRK, smul_eq_mul]

theorem norm_wRK (k r : Lat n) : ‖wRK n k r‖ = 1 := by
  have e : ((1 : ℤ) : ℂ) * (2 * Real.pi * I * ∑ i, ((r i).val * (k i).val : ℂ) / n i)
      = ((2 * Real.pi * ∑ i, ((r i).val * (k i).val : ℝ) / n i : ℝ) : ℂ) * I := by
    push_cast
    ring
  rw [wRK, e, norm_exp_ofReal_mul_I]

theorem norm_rToK_le (f : Lat n → ℂ) (k : Lat n) (b : Lat n → ℝ) (h : ∀ r, ‖f r‖ ≤ b r) : ‖rToK f k‖ ≤ ∑ r, b r := by
  rw [rToK_weights]
  refine (norm_sum_le _ _).trans (Finset.sum_le_sum fun r _ => ?_)
  rw [norm_mul, norm_wRK, one_mul]
  exact h r

theorem rToK_sub' (f g : Lat n → ℂ) (k : Lat n) : rToK f k - rToK g k = rToK (fun r => f r - g r) k := by
  simp only [rToK_weights, mul_sub, Finset.sum_sub_distrib]

theorem coeff_kToR (s : Stat) (beta : ℝ) (g : ℝ → Lat n → ℂ) (hg : ∀ k, Continuous fun tau => g tau k) (r : Lat n) (m : ℤ) :
    coeff s beta (fun tau => kToR (g tau) r) m = kToR (fun k => coeff s beta (fun tau => g tau k) m) r := by
  simp only [kToR_weights]
  exact coeff_lin Finset.univ s beta _ (fun k tau => g tau k) (fun k _ => hg k) m

theorem coeff_rToK (s : Stat) (beta : ℝ) (g : ℝ → Lat n → ℂ) (hg : ∀ r, Continuous fun tau => g tau r) (k : Lat n) (m : ℤ) :
    coeff s beta (fun tau => rToK (g tau) k) m = rToK (fun r => coeff s beta (fun tau => g tau r) m) k := by
  simp only [rToK_weights]
  exact coeff_lin Finset.univ s beta _ (fun r tau => g tau r) (fun r _ => hg r) m

theorem contDiff_kToR {N : WithTop ℕ∞} (g : ℝ → Lat n → ℂ) (hg : ∀ k, ContDiff ℝ N fun tau => g tau k) (r : Lat n) :
    ContDiff ℝ N fun tau => kToR (g tau) r := by
  simp only [kToR_weights]
  exact ContDiff.sum fun k _ => contDiff_const.mul (hg k)

/-! ## The trapezoidal rule -/

/-- data close to a smooth function have a trapezoidal sum close to the integral -/
theorem trapezoid_close (beta : ℝ) (hb : 0 < beta) (P : ℝ → ℂ) (hP : ContDiff ℝ 2 P) :
    ∃ C, 0 ≤ C ∧ ∀ (L : ℕ) (x : ℕ → ℂ) (δ : ℝ), 0 < L → (∀ t ≤ L, ‖x t - P (tauOf beta L t)‖ ≤ δ) →
      ‖(beta / L : ℝ) * (∑ t ∈ Finset.range L, x t + (x L - x 0) / 2) - coeff .boson beta P 0‖ ≤ C * (δ + 1 / (L : ℝ) ^ 2) := by
  obtain ⟨C, hC, h⟩ := sumError_le beta hb P hP
  refine ⟨2 * beta + C, by positivity, fun L x δ hL hx => ?_⟩
  have hL1 : (1 : ℝ) ≤ L := by exact_mod_cast hL
  have hL0 : (0 : ℝ) < L := by linarith
  have hδ : 0 ≤ δ := (norm_nonneg _).trans (hx 0 (by omega))
  have e0 : tauOf beta L 0 = 0 := by simp [tauOf]
  have eL : tauOf beta L L = beta := by
    rw [tauOf]
    field_simp
  have ec : coeff .boson beta P 0 = ∫ tau in (0 : ℝ)..beta, P tau := by
    rw [coeff]
    congr 1
    funext tau
    simp [matsubara]
  have e : (beta / L : ℝ) * (∑ t ∈ Finset.range L, x t + (x L - x 0) / 2) - coeff .boson beta P 0
      = ((beta / L : ℝ) : ℂ) * (∑ t ∈ Finset.range L, (x t - P (tauOf beta L t))
        + ((x L - P (tauOf beta L L)) - (x 0 - P (tauOf beta L 0))) / 2) + sumError beta L P := by
    rw [ec, sumError, e0, eL, Finset.sum_sub_distrib]
    ring
  rw [e]
  have p1 : ‖∑ t ∈ Finset.range L, (x t - P (tauOf beta L t))‖ ≤ L * δ := by
    refine (norm_sum_le _ _).trans ?_
    have := Finset.sum_le_card_nsmul (Finset.range L) (fun t => ‖x t - P (tauOf beta L t)‖) δ
      fun t ht => hx t (Finset.mem_range.1 ht).le
    rwa [Finset.card_range, nsmul_eq_mul] at this
  have p2 : ‖((x L - P (tauOf beta L L)) - (x 0 - P (tauOf beta L 0))) / 2‖ ≤ δ := by
    rw [norm_div]
    have := (norm_sub_le (x L - P (tauOf beta L L)) (x 0 - P (tauOf beta L 0))).trans (add_le_add (hx L le_rfl) (hx 0 (by omega)))
    have h2 : ‖(2 : ℂ)‖ = 2 := by norm_num
    rw [h2]
    linarith
  have p3 : ‖((beta / L : ℝ) : ℂ) * (∑ t ∈ Finset.range L, (x t - P (tauOf beta L t))
        + ((x L - P (tauOf beta L L)) - (x 0 - P (tauOf beta L 0))) / 2)‖ ≤ 2 * beta * δ := by
    rw [norm_mul, Complex.norm_real, Real.norm_of_nonneg (by positivity)]
    calc _ ≤ beta / L * (L * δ + L * δ) := by
          gcongr
          refine (norm_add_le _ _).trans (add_le_add p1 (p2.trans ?_))
          exact le_mul_of_one_le_left hδ hL1
      _ = 2 * beta * δ := by field_simp; ring
  have p4 := h L hL
  have q1 : 0 ≤ 2 * beta * (1 / (L : ℝ) ^ 2) := by positivity
  have q2 : 0 ≤ C * δ := mul_nonneg hC hδ
  have e5 : (2 * beta + C) * (δ + 1 / (L : ℝ) ^ 2) = 2 * beta * δ + C / (L : ℝ) ^ 2 + (2 * beta * (1 / (L : ℝ) ^ 2) + C * δ) := by ring
  refine (norm_add_le _ _).trans ?_
  linarith

end Verif.Fourier
