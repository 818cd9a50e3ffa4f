import Verif.Stable.Props
import Verif.Lindhard.Props
import Mathlib.Analysis.Calculus.MeanValue

/-!
# C133: the Lindhard function

Theorems about the model of `lindhard_chi00` (`Verif.Lindhard`).
-/

set_option linter.unusedSectionVars false

noncomputable section

namespace Verif.Stable

open Complex Matrix Verif.Lindhard Verif.Fourier

/-! ## Slopes -/

theorem lip {f f' : ℝ → ℝ} {C : ℝ} (hf : ∀ x, HasDerivAt f (f' x) x) (hC : ∀ x, |f' x| ≤ C) (x y : ℝ) : |f y - f x| ≤ C * |y - x| :=
  Convex.norm_image_sub_le_of_norm_hasDerivWithin_le (s := Set.univ) (fun x _ => (hf x).hasDerivWithinAt) (fun x _ => hC x) convex_univ
    (Set.mem_univ x) (Set.mem_univ y)

/-- minus the slope of the Fermi function -/
def slope (x : ℝ) : ℝ := 1 / (4 * Real.cosh (x / 2) ^ 2)

theorem slope_pos (x : ℝ) : 0 < slope x := by
  have := Real.cosh_pos (x / 2)
  unfold slope
  positivity

theorem slope_le (x : ℝ) : slope x ≤ 1 / 4 := by
  have h := Real.one_le_cosh (x / 2)
  unfold slope
  refine one_div_le_one_div_of_le (by norm_num) ?_
  nlinarith

theorem fermi_slope (x : ℝ) : HasDerivAt fermi (-slope x) x := fermi_hasDerivAt x

theorem slope_deriv (x : ℝ) : HasDerivAt slope (-(Real.sinh (x / 2) / (4 * Real.cosh (x / 2) ^ 3))) x := by
  have hc := Real.cosh_pos (x / 2)
  have h1 : HasDerivAt (fun x : ℝ => Real.cosh (x / 2)) (Real.sinh (x / 2) * (1 / 2)) x :=
    HasDerivAt.comp x (h₂ := Real.cosh) (Real.hasDerivAt_cosh (x / 2)) ((hasDerivAt_id x).div_const 2)
  have h2 := ((h1.pow 2).const_mul 4).inv (by simp only [Pi.pow_apply]; positivity)
  refine HasDerivAt.congr_deriv (h2.congr_of_eventuallyEq (Filter.Eventually.of_forall fun y => ?_)) ?_
  · unfold slope
    rw [one_div]
    rfl
  · simp only [Pi.pow_apply]
    field_simp
    ring

theorem slope_deriv_le (x : ℝ) : |-(Real.sinh (x / 2) / (4 * Real.cosh (x / 2) ^ 3))| ≤ 1 / 4 := by
  have hc := Real.cosh_pos (x / 2)
  have h1 := Real.one_le_cosh (x / 2)
  have h2 : |Real.sinh (x / 2)| ≤ Real.cosh (x / 2) := by
    refine abs_le_of_sq_le_sq ?_ hc.le
    rw [Real.cosh_sq]
    linarith
  rw [abs_neg, abs_div, abs_of_pos (show 0 < 4 * Real.cosh (x / 2) ^ 3 by positivity), div_le_iff₀ (by positivity)]
  have h3 : Real.cosh (x / 2) ≤ Real.cosh (x / 2) ^ 3 := by
    nlinarith [mul_nonneg hc.le (show 0 ≤ Real.cosh (x / 2) ^ 2 - 1 by nlinarith)]
  linarith

theorem slope_lip (x y : ℝ) : |slope y - slope x| ≤ 1 / 4 * |y - x| := lip slope_deriv slope_deriv_le x y

theorem fermi_lip (x y : ℝ) : |fermi y - fermi x| ≤ 1 / 4 * |y - x| :=
  lip fermi_slope (fun x => by rw [abs_neg, abs_of_pos (slope_pos x)]; exact slope_le x) x y

theorem degenerate_factor (beta x : ℝ) : beta / (4 * Real.cosh (0.5 * beta * x) * Real.cosh (0.5 * beta * x)) = beta * slope (x * beta) := by
  unfold slope
  rw [show x * beta / 2 = 0.5 * beta * x by norm_num; ring]
  ring

/-- imaginary frequencies do not come closer than the distance of the levels -/
theorem far {z : ℂ} (hz : z.re = 0) (x : ℝ) : |x| ≤ ‖z + x‖ := by
  have := Complex.abs_re_le_norm (z + x)
  rwa [Complex.add_re, hz, zero_add, Complex.ofReal_re] at this

/-! ## One factor -/

section Factor

variable {tol beta : ℝ} {z : ℂ}

theorem factor_bound (hb : 0 ≤ beta) (hz : z.re = 0) (x y : ℝ) : ‖totalFactor tol beta z x y‖ ≤ beta / 4 := by
  unfold totalFactor
  dsimp only
  split_ifs
  · rw [degenerate_factor, Complex.norm_real, Real.norm_eq_abs, abs_of_nonneg (mul_nonneg hb (slope_pos _).le)]
    have := mul_le_mul_of_nonneg_left (slope_le (x * beta)) hb
    linarith
  · rw [norm_div, Complex.norm_real, Real.norm_eq_abs]
    refine div_le_of_le_mul₀ (norm_nonneg _) (by positivity) ?_
    have h1 := fermi_lip (y * beta) (x * beta)
    have h2 := far hz (y - x)
    rw [← sub_mul, abs_mul, abs_of_nonneg hb, abs_sub_comm x y] at h1
    have := mul_le_mul_of_nonneg_left h2 (show 0 ≤ beta / 4 by positivity)
    linarith

/-- at zero frequency the regular branch is close to the degenerate one -/
theorem factor_close (hb : 0 ≤ beta) {x y : ℝ} (hxy : y ≠ x) :
    |(fermi (x * beta) - fermi (y * beta)) / (y - x) - beta * slope (x * beta)| ≤ beta ^ 2 / 4 * |y - x| := by
  have h1 : ∀ t, HasDerivAt (fun t : ℝ => -fermi (t * beta) - beta * slope (x * beta) * t) (beta * slope (t * beta) - beta * slope (x * beta)) t := by
    intro t
    have h0 := (HasDerivAt.comp t (h₂ := fermi) (h := fun y : ℝ => y * beta) (fermi_slope (t * beta))
      ((hasDerivAt_id t).mul_const beta)).neg
    have h2 := (hasDerivAt_id t).const_mul (beta * slope (x * beta))
    refine HasDerivAt.congr_deriv (h0.sub h2) ?_
    simp
    ring
  have h2 := Convex.norm_image_sub_le_of_norm_hasDerivWithin_le (s := Set.uIcc x y) (C := beta ^ 2 / 4 * |y - x|)
    (fun t _ => (h1 t).hasDerivWithinAt) (fun t ht => ?_) (convex_uIcc x y) Set.left_mem_uIcc Set.right_mem_uIcc
  · have h3 : 0 < |y - x| := abs_pos.2 (sub_ne_zero.2 hxy)
    refine le_of_mul_le_mul_right ?_ h3
    rw [← abs_mul, sub_mul, div_mul_cancel₀ _ (sub_ne_zero.2 hxy)]
    rw [Real.norm_eq_abs, Real.norm_eq_abs] at h2
    refine le_of_eq_of_le ?_ h2
    congr 1
    ring
  · rw [← mul_sub, Real.norm_eq_abs, abs_mul, abs_of_nonneg hb]
    have h3 := slope_lip (x * beta) (t * beta)
    rw [← sub_mul, abs_mul, abs_of_nonneg hb] at h3
    have h4 : |t - x| ≤ |y - x| := Set.abs_sub_left_of_mem_uIcc ht
    have h5 := mul_le_mul_of_nonneg_left h3 hb
    have h6 := mul_le_mul_of_nonneg_left h4 (show 0 ≤ beta ^ 2 / 4 by positivity)
    calc beta * |slope (t * beta) - slope (x * beta)| ≤ beta * (1 / 4 * (|t - x| * beta)) := h5
      _ = beta ^ 2 / 4 * |t - x| := by ring
      _ ≤ _ := h6

/-- the tolerance matters little -/
theorem factor_tol (hb : 0 ≤ beta) {tol' t : ℝ} (h0 : 0 < tol) (h0' : 0 < tol') (ht : tol ≤ t) (ht' : tol' ≤ t)
    (hz : ‖z‖ < t → z = 0) (x y : ℝ) : ‖totalFactor tol beta z x y - totalFactor tol' beta z x y‖ ≤ beta ^ 2 / 4 * t := by
  have key : ∀ {a b : ℝ}, 0 < a → 0 < b → a ≤ t → b ≤ t → (‖z‖ < a ∧ |y - x| < a) → ¬ (‖z‖ < b ∧ |y - x| < b) →
      ‖((beta / (4 * Real.cosh (0.5 * beta * x) * Real.cosh (0.5 * beta * x)) : ℝ) : ℂ)
        - ((fermi (x * beta) - fermi (y * beta) : ℝ) : ℂ) / (z + ((y - x : ℝ) : ℂ))‖ ≤ beta ^ 2 / 4 * t := by
    intro a b ha hb' hat hbt h1 h2
    have hz0 : z = 0 := hz (lt_of_lt_of_le h1.1 hat)
    have hxy : y ≠ x := by
      intro h
      refine h2 ⟨by rw [hz0, norm_zero]; exact hb', by rw [h, sub_self, abs_zero]; exact hb'⟩
    rw [degenerate_factor, hz0, zero_add, ← Complex.ofReal_div, ← Complex.ofReal_sub, Complex.norm_real, Real.norm_eq_abs, abs_sub_comm]
    refine (factor_close hb hxy).trans ?_
    have := mul_le_mul_of_nonneg_left (h1.2.le.trans hat) (show 0 ≤ beta ^ 2 / 4 by positivity)
    exact this
  have ht0 : 0 ≤ beta ^ 2 / 4 * t := mul_nonneg (by positivity) (h0.le.trans ht)
  unfold totalFactor
  dsimp only
  by_cases h1 : ‖z‖ < tol ∧ |y - x| < tol
  · by_cases h2 : ‖z‖ < tol' ∧ |y - x| < tol'
    · rw [if_pos h1, if_pos h2, sub_self, norm_zero]
      exact ht0
    · rw [if_pos h1, if_neg h2]
      exact key h0 h0' ht ht' h1 h2
  · by_cases h2 : ‖z‖ < tol' ∧ |y - x| < tol'
    · rw [if_neg h1, if_pos h2, norm_sub_rev]
      exact key h0' h0 ht' ht h2 h1
    · rw [if_neg h1, if_neg h2, sub_self, norm_zero]
      exact ht0

/-- shift of both levels -/
theorem factor_shift (hb : 0 ≤ beta) (hz : z.re = 0) (x y s : ℝ) :
    ‖totalFactor tol beta z (x + s) (y + s) - totalFactor tol beta z x y‖ ≤ beta ^ 2 / 4 * |s| := by
  unfold totalFactor
  dsimp only
  rw [add_sub_add_right_eq_sub]
  split_ifs
  · rw [degenerate_factor, degenerate_factor, ← Complex.ofReal_sub, Complex.norm_real, Real.norm_eq_abs, ← mul_sub, abs_mul,
      abs_of_nonneg hb]
    have h3 := slope_lip (x * beta) ((x + s) * beta)
    rw [← sub_mul, add_sub_cancel_left, abs_mul, abs_of_nonneg hb] at h3
    calc beta * |slope ((x + s) * beta) - slope (x * beta)| ≤ beta * (1 / 4 * (|s| * beta)) := mul_le_mul_of_nonneg_left h3 hb
      _ = _ := by ring
  · rw [← sub_div, norm_div, ← Complex.ofReal_sub, Complex.norm_real, Real.norm_eq_abs]
    refine div_le_of_le_mul₀ (norm_nonneg _) (by positivity) ?_
    have h1 : ∀ t, HasDerivAt (fun t : ℝ => fermi ((t + s) * beta) - fermi (t * beta)) (beta * slope (t * beta) - beta * slope ((t + s) * beta)) t := by
      intro t
      have h0 := HasDerivAt.comp t (h₂ := fermi) (h := fun y : ℝ => y * beta) (fermi_slope (t * beta))
        ((hasDerivAt_id t).mul_const beta)
      have h2 := HasDerivAt.comp t (h₂ := fermi) (h := fun y : ℝ => (y + s) * beta) (fermi_slope ((t + s) * beta))
        (((hasDerivAt_id t).add_const s).mul_const beta)
      refine HasDerivAt.congr_deriv (h2.sub h0) ?_
      simp
      ring
    have h2 := lip h1 (C := beta ^ 2 / 4 * |s|) (fun t => ?_) y x
    · have h3 := far hz (y - x)
      rw [abs_sub_comm x y] at h2
      have h4 := mul_le_mul_of_nonneg_left h3 (show 0 ≤ beta ^ 2 / 4 * |s| by positivity)
      refine le_of_eq_of_le ?_ (h2.trans h4)
      congr 1
      ring
    · have h3 := slope_lip ((t + s) * beta) (t * beta)
      rw [← sub_mul, sub_add_cancel_left, abs_mul, abs_of_nonneg hb, abs_neg] at h3
      rw [← mul_sub, abs_mul, abs_of_nonneg hb]
      calc beta * |slope (t * beta) - slope ((t + s) * beta)| ≤ beta * (1 / 4 * (|s| * beta)) := mul_le_mul_of_nonneg_left h3 hb
        _ = _ := by ring

end Factor

/-! ## The whole function -/

section Whole

variable {d : ℕ} {n : Fin d → ℕ} [∀ i, NeZero (n i)] {o : Type*} [Fintype o] [DecidableEq o]

theorem row_one {m : Matrix o o ℂ} {p : (o → ℝ) × Matrix o o ℂ} (hp : Diag m p) (a : o) : ∑ i, ‖p.2 a i‖ ^ 2 = 1 := by
  have h := congrFun (congrFun hp.2.1 a) a
  rw [Matrix.mul_apply, Matrix.one_apply_eq] at h
  have e : ∀ i, p.2 a i * p.2ᴴ i a = ((‖p.2 a i‖ ^ 2 : ℝ) : ℂ) := fun i => by
    rw [Matrix.conjTranspose_apply, Complex.star_def, Complex.mul_conj, Complex.normSq_eq_norm_sq]
  simp only [e, ← Complex.ofReal_sum] at h
  exact_mod_cast h

theorem rows_le {m : Matrix o o ℂ} {p : (o → ℝ) × Matrix o o ℂ} (hp : Diag m p) (a b : o) : ∑ i, ‖p.2 a i * p.2ᴴ i b‖ ≤ 1 := by
  have h := Real.sum_mul_le_sqrt_mul_sqrt Finset.univ (fun i => ‖p.2 a i‖) fun i => ‖p.2 b i‖
  rw [row_one hp, row_one hp, Real.sqrt_one, mul_one] at h
  refine le_of_eq_of_le (Finset.sum_congr rfl fun i _ => ?_) h
  rw [norm_mul, Matrix.conjTranspose_apply, norm_star]

theorem dbl_bound {m m' : Matrix o o ℂ} {p q : (o → ℝ) × Matrix o o ℂ} (hp : Diag m p) (hq : Diag m' q) {h : o → o → ℂ} {B : ℝ}
    (hB : ∀ i j, ‖h i j‖ ≤ B) (h0 : 0 ≤ B) (a b c d : o) : ‖∑ i, ∑ j, p.2 a i * p.2ᴴ i d * q.2 c j * q.2ᴴ j b * h i j‖ ≤ B := by
  calc ‖∑ i, ∑ j, p.2 a i * p.2ᴴ i d * q.2 c j * q.2ᴴ j b * h i j‖
      ≤ ∑ i, ∑ j, ‖p.2 a i * p.2ᴴ i d‖ * ‖q.2 c j * q.2ᴴ j b‖ * B := by
        refine (norm_sum_le _ _).trans (Finset.sum_le_sum fun i _ => (norm_sum_le _ _).trans (Finset.sum_le_sum fun j _ => ?_))
        rw [norm_mul, mul_assoc (p.2 a i * p.2ᴴ i d), norm_mul (p.2 a i * p.2ᴴ i d)]
        exact mul_le_mul_of_nonneg_left (hB i j) (by positivity)
    _ = (∑ i, ‖p.2 a i * p.2ᴴ i d‖) * (∑ j, ‖q.2 c j * q.2ᴴ j b‖) * B := by
        rw [Finset.sum_mul_sum, Finset.sum_mul]
        refine Finset.sum_congr rfl fun i _ => ?_
        rw [Finset.sum_mul]
    _ ≤ 1 * 1 * B := by
        have h1 := rows_le hp a d
        have h2 := rows_le hq c b
        gcongr
    _ = B := by ring

theorem mean_bound {K : Type*} [Fintype K] [Nonempty K] {f : K → ℂ} {B : ℝ} (h : ∀ k, ‖f k‖ ≤ B) :
    ‖(Fintype.card K : ℂ)⁻¹ * ∑ k, f k‖ ≤ B := by
  have hK : (0 : ℝ) < Fintype.card K := by exact_mod_cast Fintype.card_pos
  rw [norm_mul, norm_inv, Complex.norm_natCast, inv_mul_le_iff₀ hK]
  refine (norm_sum_le _ _).trans ((Finset.sum_le_sum fun k _ => h k).trans (le_of_eq ?_))
  rw [Finset.sum_const, Finset.card_univ, nsmul_eq_mul]

variable {beta : ℝ} {z : ℂ} (hb : 0 ≤ beta) (hz : z.re = 0) (ranks : ℕ) (hr : 0 < ranks) (eig : Eig o) (hs : EigSpec eig) (tol mu : ℝ)
  (kmesh : List (Lat n)) (hnd : kmesh.Nodup) (hall : ∀ k, k ∈ kmesh) (e : Lat n → Matrix o o ℂ) (he : ∀ k, (e k).IsHermitian)
  (q : Lat n) (a b c d : o)

include hb hz hr hs hnd hall he

/-- C133: no element of the Lindhard function exceeds `β/4`, at any imaginary frequency, with any tolerance: nothing blows up when
levels come close. -/
theorem C133_lindhard_bound : ‖lindhard ranks eig tol beta mu kmesh e z q a b c d‖ ≤ beta / 4 := by
  rw [lindhard_eq ranks hr _ _ _ _ _ hnd hall]
  simp only [Pi.smul_apply, Finset.sum_apply, smul_eq_mul]
  exact mean_bound fun k => dbl_bound (sys_diag hs mu he k) (sys_diag hs mu he (k + q)) (fun i j => factor_bound hb hz _ _)
    (by positivity) a b c d

/-- C133: the Lindhard function changes by at most `β²/4` times the change of the chemical potential. -/
theorem C133_lindhard_mu (mu' : ℝ) :
    ‖lindhard ranks eig tol beta mu' kmesh e z q a b c d - lindhard ranks eig tol beta mu kmesh e z q a b c d‖
      ≤ beta ^ 2 / 4 * |mu' - mu| := by
  have hsh : ∀ k, Diag (e k - (mu' : ℂ) • 1) (fun i => (sys eig mu e k).1 i + (mu - mu'), (sys eig mu e k).2) := by
    intro k
    obtain ⟨h1, h2, h3⟩ := sys_diag hs mu he k
    refine ⟨h1, h2, ?_⟩
    have e1 : Matrix.diagonal (fun i => (((sys eig mu e k).1 i + (mu - mu') : ℝ) : ℂ))
        = Matrix.diagonal (fun i => ((sys eig mu e k).1 i : ℂ)) + ((mu - mu' : ℝ) : ℂ) • 1 := by
      rw [Matrix.smul_one_eq_diagonal, Matrix.diagonal_add]
      push_cast
      rfl
    rw [e1, Matrix.mul_add, Matrix.add_mul, ← h3, Matrix.mul_smul, Matrix.mul_one, Matrix.smul_mul, h2]
    push_cast
    module
  rw [lindhard_eq ranks hr _ _ _ _ _ hnd hall, lindhard_eq ranks hr _ _ _ _ _ hnd hall]
  simp only [Pi.smul_apply, Finset.sum_apply, smul_eq_mul]
  rw [← mul_sub, ← Finset.sum_sub_distrib]
  refine mean_bound fun k => ?_
  rw [dbl_unique (sys_diag hs mu' he k) (hsh k) (sys_diag hs mu' he (k + q)) (hsh (k + q))]
  unfold dbl
  rw [← Finset.sum_sub_distrib]
  simp only [← Finset.sum_sub_distrib, ← mul_sub]
  refine dbl_bound (sys_diag hs mu he k) (sys_diag hs mu he (k + q)) (fun i j => ?_) (by positivity) a b c d
  rw [abs_sub_comm]
  exact factor_shift hb hz _ _ _

omit hz in
/-- C133: the tolerance of the Lindhard function matters little: the results for two tolerances below `t` differ by at most
`β² t / 4`, if no frequency of the mesh except zero is below `t`. -/
theorem C133_lindhard_tolerance (tol' t : ℝ) (h0 : 0 < tol) (h0' : 0 < tol') (ht : tol ≤ t) (ht' : tol' ≤ t) (hz : ‖z‖ < t → z = 0) :
    ‖lindhard ranks eig tol beta mu kmesh e z q a b c d - lindhard ranks eig tol' beta mu kmesh e z q a b c d‖ ≤ beta ^ 2 / 4 * t := by
  rw [lindhard_eq ranks hr _ _ _ _ _ hnd hall, lindhard_eq ranks hr _ _ _ _ _ hnd hall]
  simp only [Pi.smul_apply, Finset.sum_apply, smul_eq_mul]
  rw [← mul_sub, ← Finset.sum_sub_distrib]
  refine mean_bound fun k => ?_
  unfold dbl
  rw [← Finset.sum_sub_distrib]
  simp only [← Finset.sum_sub_distrib, ← mul_sub]
  exact dbl_bound (sys_diag hs mu he k) (sys_diag hs mu he (k + q)) (fun i j => factor_tol hb h0 h0' ht ht' hz _ _)
    (mul_nonneg (by positivity) (h0.le.trans ht)) a b c d

end Whole

/-! ## The jump -/

/-- two momenta, levels at `-t/2` and `t/2` -/
def pairBand (t : ℝ) : Lat (fun _ : Fin 1 => 2) → Matrix (Fin 1) (Fin 1) ℂ := fun k _ _ => ((if k 0 = 0 then -t / 2 else t / 2 : ℝ) : ℂ)

theorem pairBand_hermitian (t : ℝ) (k : Lat (fun _ : Fin 1 => 2)) : (pairBand t k).IsHermitian := by
  ext i j
  rw [Matrix.conjTranspose_apply]
  unfold pairBand
  rw [RCLike.star_def, Complex.conj_ofReal]

theorem sum_lat2 {M : Type*} [AddCommMonoid M] (f : Lat (fun _ : Fin 1 => 2) → M) : ∑ k, f k = f 0 + f 1 := by
  rw [← Equiv.sum_comp (Equiv.funUnique (Fin 1) (ZMod 2)).symm]
  exact Fin.sum_univ_two _

theorem pair_lindhard (ranks : ℕ) (hr : 0 < ranks) {eig : Eig (Fin 1)} (hs : EigSpec eig) (tol beta : ℝ)
    (kmesh : List (Lat (fun _ : Fin 1 => 2))) (hnd : kmesh.Nodup) (hall : ∀ k, k ∈ kmesh) (t : ℝ) :
    lindhard ranks eig tol beta 0 kmesh (pairBand t) 0 1 0 0 0 0
      = 2⁻¹ * (totalFactor tol beta 0 (-t / 2) (t / 2) + totalFactor tol beta 0 (t / 2) (-t / 2)) := by
  have hH : ∀ k, (pairBand t k - ((0 : ℝ) : ℂ) • 1).IsHermitian := by
    intro k; simpa using pairBand_hermitian t k
  have hE : ∀ k, (pairBand t k - ((0 : ℝ) : ℂ) • (1 : Matrix (Fin 1) (Fin 1) ℂ)) 0 0 = ((if k 0 = 0 then -t / 2 else t / 2 : ℝ) : ℂ) := by
    intro k
    simp only [ofReal_zero, zero_smul, sub_zero, pairBand]
  rw [lindhard_eq ranks hr _ _ _ _ _ hnd hall]
  simp only [Pi.smul_apply, Finset.sum_apply, smul_eq_mul]
  rw [sum_lat2]
  unfold sys
  rw [one_band_dbl hs (hH _) (hH _) _ _ (hE _) (hE _), one_band_dbl hs (hH _) (hH _) _ _ (hE _) (hE _)]
  have h11 : ((1 : Lat (fun _ : Fin 1 => 2)) + 1) 0 = 0 := by decide
  have h1 : ((1 : Lat (fun _ : Fin 1 => 2))) 0 ≠ 0 := by decide
  have h01 : ((0 : Lat (fun _ : Fin 1 => 2)) + 1) 0 ≠ 0 := by decide
  have h0 : ((0 : Lat (fun _ : Fin 1 => 2))) 0 = 0 := rfl
  rw [if_pos h0, if_neg h01, if_neg h1, if_pos h11]
  congr 1

/-- C133 is violated by the Lindhard function at zero frequency: as a function of the splitting `t` of two levels it jumps where `t`
reaches the tolerance, for every temperature, every tolerance, every diagonalisation routine and every number of ranks. -/
theorem C133_lindhard_violated (ranks : ℕ) (hr : 0 < ranks) (eig : Eig (Fin 1)) (hs : EigSpec eig) (tol beta : ℝ) (ht : 0 < tol)
    (hb : 0 < beta) (kmesh : List (Lat (fun _ : Fin 1 => 2))) (hnd : kmesh.Nodup) (hall : ∀ k, k ∈ kmesh) :
    ¬ ContinuousAt (fun t => lindhard ranks eig tol beta 0 kmesh (pairBand t) 0 1 0 0 0 0) tol := by
  intro hc
  have hval : lindhard ranks eig tol beta 0 kmesh (pairBand tol) 0 1 0 0 0 0
      = (((fermi (-tol / 2 * beta) - fermi (tol / 2 * beta)) / tol : ℝ) : ℂ) := by
    rw [pair_lindhard ranks hr hs tol beta kmesh hnd hall]
    unfold totalFactor
    dsimp only
    have e1 : tol / 2 - -tol / 2 = tol := by ring
    have e2 : -tol / 2 - tol / 2 = -tol := by ring
    rw [e1, e2, abs_neg, abs_of_pos ht, if_neg (fun h => lt_irrefl _ h.2), if_neg (fun h => lt_irrefl _ h.2)]
    push_cast
    rw [zero_add, zero_add, div_neg, ← neg_div, neg_sub]
    ring
  have hleft : ∀ t, 0 < t → t < tol → lindhard ranks eig tol beta 0 kmesh (pairBand t) 0 1 0 0 0 0
      = ((beta * slope (t / 2 * beta) : ℝ) : ℂ) := by
    intro t h0 h1
    rw [pair_lindhard ranks hr hs tol beta kmesh hnd hall]
    unfold totalFactor
    dsimp only
    have e1 : t / 2 - -t / 2 = t := by ring
    have e2 : -t / 2 - t / 2 = -t := by ring
    have h2 : ‖(0 : ℂ)‖ < tol ∧ |t| < tol := ⟨by rw [norm_zero]; exact ht, by rwa [abs_of_pos h0]⟩
    rw [e1, e2, abs_neg, if_pos h2, if_pos h2, degenerate_factor, degenerate_factor]
    have e3 : slope (-t / 2 * beta) = slope (t / 2 * beta) := by
      unfold slope
      rw [show -t / 2 * beta / 2 = -(t / 2 * beta / 2) by ring, Real.cosh_neg]
    rw [e3]
    push_cast
    ring
  have hlim1 := hc.tendsto.mono_left (nhdsWithin_le_nhds (s := Set.Ioo 0 tol))
  have hcont : Continuous fun t : ℝ => ((beta * slope (t / 2 * beta) : ℝ) : ℂ) := by
    have : Continuous slope := continuous_iff_continuousAt.2 fun x => (slope_deriv x).continuousAt
    fun_prop
  have hlim2 := (hcont.tendsto tol).mono_left (nhdsWithin_le_nhds (s := Set.Ioo 0 tol))
  have hlim3 := hlim2.congr' (f₂ := fun t => lindhard ranks eig tol beta 0 kmesh (pairBand t) 0 1 0 0 0 0) (by
    filter_upwards [self_mem_nhdsWithin] with t h
    exact (hleft t h.1 h.2).symm)
  have hne : (nhdsWithin tol (Set.Ioo 0 tol)).NeBot := right_nhdsWithin_Ioo_neBot ht
  have heq := tendsto_nhds_unique hlim1 hlim3
  rw [hval] at heq
  have heq' : (fermi (-tol / 2 * beta) - fermi (tol / 2 * beta)) / tol = beta * slope (tol / 2 * beta) := by exact_mod_cast heq
  set x := tol * beta / 4 with hx
  have hx0 : 0 < x := by positivity
  have hcx := Real.cosh_pos x
  have hd : fermi (-tol / 2 * beta) - fermi (tol / 2 * beta) = Real.sinh x / Real.cosh x := by
    rw [C20_fermi, C20_fermi, show -tol / 2 * beta = -(x + x) by rw [hx]; ring, show tol / 2 * beta = x + x by rw [hx]; ring, Real.exp_neg,
      Real.exp_add, Real.sinh_eq, Real.cosh_eq, Real.exp_neg]
    have := Real.exp_pos x
    field_simp
    ring
  have hsl : slope (tol / 2 * beta) = 1 / (4 * Real.cosh x ^ 2) := by
    unfold slope
    rw [show tol / 2 * beta / 2 = x by rw [hx]; ring]
  rw [hd, hsl, div_eq_iff ht.ne'] at heq'
  have h4 : Real.sinh x * Real.cosh x = x := by
    have h5 : Real.sinh x / Real.cosh x * Real.cosh x ^ 2 = beta * (1 / (4 * Real.cosh x ^ 2)) * tol * Real.cosh x ^ 2 := by rw [heq']
    have h6 : Real.sinh x / Real.cosh x * Real.cosh x ^ 2 = Real.sinh x * Real.cosh x := by field_simp
    have h7 : beta * (1 / (4 * Real.cosh x ^ 2)) * tol * Real.cosh x ^ 2 = x := by
      rw [hx]
      field_simp
    rw [← h6, h5, h7]
  have h5 : x < Real.sinh x := Real.self_lt_sinh_iff.2 hx0
  have h6 := Real.one_le_cosh x
  nlinarith

end Verif.Stable
