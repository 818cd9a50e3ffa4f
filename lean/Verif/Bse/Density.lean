import Verif.Eliashberg.Converge

/-!
# C92: frequency sums with tail correction

`chi0q_sum_nu_tail_corr_PH` replaces the sum over the fermionic mesh by the TRIQS function `density`.
-/

noncomputable section

set_option linter.unusedSectionVars false

namespace Verif.Bse

open Complex Verif.Parallel Verif.Fourier Verif.Eliashberg

variable {o : Type} [Fintype o] [DecidableEq o] {W K : Type} [DecidableEq W] [DecidableEq K]

/-- The TRIQS function `density` of a scalar function on a fermionic mesh with `N` positive frequencies, called at
`/repo/c++/triqs_tprf/lattice/chi_imfreq.cpp:556`: a three pole model with the moments of the tail fit is subtracted, the rest is summed
over the mesh, and the exact sum of the model is added; the convergence factor selects the time just below `β`.  The source is
outside of the repository; the model here uses the poles of `/repo/c++/triqs_tprf/fourier/fourier_matsubara.cpp`. -/
def densityFit (beta : ℝ) (N : ℕ) (fit : (ℤ → ℂ) → Moments) (y : ℤ → ℂ) : ℂ :=
  -((1 / beta : ℂ) * ((wIndices .fermion N).map fun m => (y m - tailW .fermion (fit y).m1 (fit y).m2 (fit y).m3 (matsubara .fermion beta m))
      * exp (-(matsubara .fermion beta m * beta))).sum
    + tailT .fermion (fit y).m1 (fit y).m2 (fit y).m3 beta beta)

/-- `chi0q_sum_nu_tail_corr_PH`, `/repo/c++/triqs_tprf/lattice/chi_imfreq.cpp:520-565` -/
def chi0qSumNuTailCorr (ranks : ℕ) (beta : ℝ) (mesh : List (W × K)) (density : (ℤ → ℂ) → ℂ) (chi0 : W → ℤ → K → T4 o ℂ) :
    W × K → T4 o ℂ :=
  distributedAssign ranks mesh fun p => fun a b c d => density (fun n => chi0 p.1 n p.2 a b c d) / beta

theorem densityFit_close (beta : ℝ) (hb : 0 < beta) (e : ℝ) (he : 0 ≤ e) (x : ℝ → ℂ) (hx : ContDiff ℝ 4 x) :
    ∃ C, 0 ≤ C ∧ ∀ (N : ℕ) (fit : (ℤ → ℂ) → Moments) (y : ℤ → ℂ), 0 < N → (∀ m ∈ window N, y m = coeff .fermion beta x m) →
      MomentsOk .fermion beta e N x (fit y) → ‖densityFit beta N fit y - -x beta‖ ≤ C / (N : ℝ) ^ 2 := by
  obtain ⟨C, hC, h⟩ := w_to_tau_ok .fermion beta hb e he x hx
  refine ⟨C + C, by positivity, fun N fit y hN hy hM => ?_⟩
  set M := fit y with hMdef
  obtain ⟨gt, hgt, hval⟩ := h (2 * N) N M hN le_rfl hM
  obtain ⟨gt', hgt', hwin, hL⟩ := wToTau_value .fermion beta hb (2 * N) N hN le_rfl M.m1 M.m2 M.m3 (coeff .fermion beta x)
  have hgg : gt = gt' := by
    rw [hgt] at hgt'
    injection hgt'
  subst hgg
  have h0 := hwin 0 (by omega)
  have hLL := hval (2 * N) le_rfl
  have eL : tauOf beta (2 * N) (2 * N) = beta := by
    rw [tauOf]
    have : (0 : ℝ) < N := by exact_mod_cast hN
    push_cast
    field_simp
  have e0 : tauOf beta (2 * N) 0 = 0 := by simp [tauOf]
  rw [eL, hL] at hLL
  rw [e0] at h0
  have hj := jump_tail0 .fermion M.m1 M.m2 M.m3 beta hb
  simp only [jump, boundarySign] at hj hLL
  have hsum : ((wIndices .fermion N).map fun m => (y m - tailW .fermion M.m1 M.m2 M.m3 (matsubara .fermion beta m))
      * exp (-(matsubara .fermion beta m * beta))).sum
      = -∑ m ∈ wSet .fermion N, (coeff .fermion beta x m - tailW .fermion M.m1 M.m2 M.m3 (matsubara .fermion beta m))
        * exp (-(matsubara .fermion beta m * (0 : ℝ))) := by
    have hw : wSet .fermion N = window N := by
      ext m
      rw [wSet, List.mem_toFinset, mem_wIndices_fermion]
    rw [Eliashberg.sum_wIndices, hw, ← Finset.sum_neg_distrib]
    refine Finset.sum_congr rfl fun m hm => ?_
    rw [hy m hm, exp_neg, exp_matsubara_sign .fermion beta hb]
    simp [boundarySign]
  have hd : densityFit beta N fit y = gt 0 + M.m1 := by
    rw [densityFit, ← hMdef, hsum, h0, windowSum]
    linear_combination -hj
  rw [hd]
  have e2 : gt 0 + M.m1 - -x beta = -(-1 * (gt 0 + M.m1) - x beta) := by ring
  rw [e2, norm_neg]
  refine hLL.trans ?_
  rw [mul_one_div]
  gcongr
  linarith

/-- C92: the tail corrected frequency sum is within `C/N²` of the exact sum, for every mesh. -/
theorem C92_tail_corrected (beta : ℝ) (hb : 0 < beta) (e : ℝ) (he : 0 ≤ e) (x : ℝ → ℂ) (hx : ContDiff ℝ 4 x) :
    ∃ C, 0 ≤ C ∧ ∀ (ranks N : ℕ) (fit : (ℤ → ℂ) → Moments) (mesh : List (W × K)) (chi0 : W → ℤ → K → T4 o ℂ) (p : W × K) (a b c f : o),
      0 < ranks → mesh.Nodup → p ∈ mesh → 0 < N → (∀ m ∈ window N, chi0 p.1 m p.2 a b c f = coeff .fermion beta x m) →
      MomentsOk .fermion beta e N x (fit fun m => chi0 p.1 m p.2 a b c f) →
      ‖chi0qSumNuTailCorr ranks beta mesh (densityFit beta N fit) chi0 p a b c f - -x beta / beta‖ ≤ C / (N : ℝ) ^ 2 := by
  obtain ⟨C, hC, h⟩ := densityFit_close beta hb e he x hx
  refine ⟨C / beta, by positivity, fun ranks N fit mesh chi0 p a b c f hr hnd hp hN hy hM => ?_⟩
  rw [chi0qSumNuTailCorr, C02_distributedAssign _ hr _ hnd, if_pos hp, ← sub_div, norm_div, norm_real, Real.norm_of_nonneg hb.le,
    div_right_comm]
  gcongr
  exact h N fit _ hN hy hM

/-- C92: with and without the tail correction the sums have the same limit, for a bubble that decays faster than `1/ν`. -/
theorem C92_tail_same_limit (beta : ℝ) (hb : 0 < beta) (e : ℝ) (he : 0 ≤ e) (x : ℝ → ℂ) (hx : ContDiff ℝ 4 x)
    (hj : jump .fermion beta x = 0) (eps : ℝ) (heps : 0 < eps) :
    ∃ N0, ∀ (ranks N : ℕ) (fit : (ℤ → ℂ) → Moments) (mesh : List (W × K)) (chi0 : W → ℤ → K → T4 o ℂ) (p : W × K) (a b c f : o),
      0 < ranks → mesh.Nodup → p ∈ mesh → N0 ≤ N → (∀ m ∈ window N, chi0 p.1 m p.2 a b c f = coeff .fermion beta x m) →
      MomentsOk .fermion beta e N x (fit fun m => chi0 p.1 m p.2 a b c f) →
      ‖chi0qSumNuTailCorr ranks beta mesh (densityFit beta N fit) chi0 p a b c f
        - chi0qSumNu ranks (beta : ℂ) mesh (fun w (m : window N) k => chi0 w m k) p a b c f‖ ≤ eps := by
  obtain ⟨C, hC, h⟩ := C92_tail_corrected (o := o) (W := W) (K := K) beta hb e he x hx
  have hs := (value_zero beta hb x (hx.of_le (by norm_num)) hj).comp tendsto_window
  obtain ⟨N1, hN1⟩ := (Metric.tendsto_atTop.1 hs) (eps / 2 * beta) (by positivity)
  obtain ⟨N2, hN2⟩ := exists_nat_gt (2 * C / eps + 1)
  refine ⟨max N1 N2, fun ranks N fit mesh chi0 p a b c f hr hnd hp hN hy hM => ?_⟩
  have hNb : (N2 : ℝ) ≤ N := by exact_mod_cast (le_max_right _ _).trans hN
  have hq : 0 ≤ 2 * C / eps := by positivity
  have hNpos : 0 < N := by
    have : (0 : ℝ) < N := by linarith
    exact_mod_cast this
  have h1 := h ranks N fit mesh chi0 p a b c f hr hnd hp hNpos hy hM
  have h2 := hN1 N ((le_max_left _ _).trans hN)
  have hb' : (beta : ℂ) ≠ 0 := by exact_mod_cast hb.ne'
  have hx0 : -x beta = x 0 := by
    simp only [jump, boundarySign] at hj
    linear_combination -hj
  have h3 : ‖chi0qSumNu ranks (beta : ℂ) mesh (fun w (m : window N) k => chi0 w m k) p a b c f - -x beta / beta‖ ≤ eps / 2 := by
    have e1 : chi0qSumNu ranks (beta : ℂ) mesh (fun w (m : window N) k => chi0 w m k) p a b c f
        = (∑ m ∈ window N, (1 / beta : ℂ) * coeff .fermion beta x m) / beta := by
      rw [chi0qSumNu, C02_distributedAssign _ hr _ hnd, if_pos hp]
      rw [Finset.sum_coe_sort (window N) fun m => chi0 p.1 m p.2 a b c f, Finset.sum_congr rfl hy, ← Finset.mul_sum]
      field_simp
    rw [e1, hx0, ← sub_div, norm_div, norm_real, Real.norm_of_nonneg hb.le, div_le_iff₀ hb]
    rw [dist_eq_norm] at h2
    exact h2.le
  have h4 : C / (N : ℝ) ^ 2 ≤ eps / 2 := by
    have hM1 : 1 ≤ (N : ℝ) := by linarith
    have hM2 : 2 * C / eps ≤ N := by linarith
    rw [div_le_iff₀ heps] at hM2
    rw [div_le_iff₀ (by positivity)]
    nlinarith
  have e3 : ∀ u v z : ℂ, u - v = (u - z) - (v - z) := fun u v z => by ring
  rw [e3 _ _ (-x beta / beta)]
  refine (norm_sub_le _ _).trans ?_
  linarith

/-- the bubble of a level at the Fermi energy at zero frequency: coefficients `1/(iν)²` of a smooth function without jump -/
example (beta : ℝ) (hb : 0 < beta) : ∃ x : ℝ → ℂ, ContDiff ℝ 4 x ∧ jump .fermion beta x = 0 ∧
    (∀ m, coeff .fermion beta x m = -(1 / matsubara .fermion beta m ^ 2))
    ∧ ∀ N, MomentsOk .fermion beta 0 N x (exactMoments .fermion beta x) := by
  refine ⟨_, ?_, levelPair_jump beta, levelPair_coeff beta hb, fun N => by simp [MomentsOk]⟩
  unfold levelPair
  exact contDiff_const.sub (Complex.ofRealCLM.contDiff.div_const _)

end Verif.Bse
