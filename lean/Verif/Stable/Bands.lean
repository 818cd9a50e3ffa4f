import Verif.Stable.Lindhard
import Mathlib.MeasureTheory.Integral.IntervalIntegral.FundThmCalculus

/-!
# C133: the Lindhard function and the bands
-/

set_option linter.unusedSectionVars false

noncomputable section

namespace Verif.Stable

open Complex Matrix Verif.Lindhard Verif.Fourier Verif.Unique

/-! ## Functions of matrices -/

section Fun

variable {o : Type*} [Fintype o] [DecidableEq o]

theorem size2_matFun {A B : Matrix o o ℂ} {p q : (o → ℝ) × Matrix o o ℂ} (hp : Diag A p) (hq : Diag B q) (g : ℝ → ℂ) :
    size2 (matFun p g - matFun q g) = ∑ i, ∑ j, ‖g (p.1 i) - g (q.1 j)‖ ^ 2 * ‖(p.2ᴴ * q.2) i j‖ ^ 2 := by
  obtain ⟨p1, p2, -⟩ := hp
  obtain ⟨q1, q2, -⟩ := hq
  have key : matFun p g - matFun q g = p.2 * Matrix.of (fun i j => (g (p.1 i) - g (q.1 j)) * (p.2ᴴ * q.2) i j) * q.2ᴴ := by
    have e : Matrix.of (fun i j => (g (p.1 i) - g (q.1 j)) * (p.2ᴴ * q.2) i j)
        = diagonal (fun i => g (p.1 i)) * (p.2ᴴ * q.2) - (p.2ᴴ * q.2) * diagonal (fun i => g (q.1 i)) := by
      ext i j
      rw [Matrix.sub_apply, Matrix.diagonal_mul, Matrix.mul_diagonal, Matrix.of_apply]
      ring
    rw [e]
    unfold matFun
    calc p.2 * diagonal (fun i => g (p.1 i)) * p.2ᴴ - q.2 * diagonal (fun i => g (q.1 i)) * q.2ᴴ
        = p.2 * diagonal (fun i => g (p.1 i)) * p.2ᴴ * (q.2 * q.2ᴴ)
          - (p.2 * p.2ᴴ) * (q.2 * diagonal (fun i => g (q.1 i)) * q.2ᴴ) := by rw [q2, p2, mul_one, one_mul]
      _ = _ := by noncomm_ring
  rw [key, ← ip_self, ip_eq_trace]
  set x := Matrix.of fun i j => (g (p.1 i) - g (q.1 j)) * (p.2ᴴ * q.2) i j with hx
  have e : (p.2 * x * q.2ᴴ)ᴴ * (p.2 * x * q.2ᴴ) = q.2 * (xᴴ * x * q.2ᴴ) := by
    rw [Matrix.conjTranspose_mul, Matrix.conjTranspose_mul, Matrix.conjTranspose_conjTranspose]
    calc q.2 * (xᴴ * p.2ᴴ) * (p.2 * x * q.2ᴴ) = q.2 * (xᴴ * (p.2ᴴ * p.2) * x * q.2ᴴ) := by noncomm_ring
      _ = _ := by rw [p1, mul_one]
  rw [e, Matrix.trace_mul_comm, Matrix.mul_assoc, q1, mul_one, ← ip_eq_trace, ip_self]
  unfold size2
  simp only [hx, Matrix.of_apply, norm_mul, mul_pow]

theorem matFun_lip {A B : Matrix o o ℂ} {p q : (o → ℝ) × Matrix o o ℂ} (hp : Diag A p) (hq : Diag B q) {g : ℝ → ℂ} {L : ℝ} (hL : 0 ≤ L)
    (hg : ∀ x y : ℝ, ‖g x - g y‖ ≤ L * |x - y|) : size (matFun p g - matFun q g) ≤ L * size (A - B) := by
  have hA : A - B = matFun p (fun x => (x : ℂ)) - matFun q fun x => (x : ℂ) := by
    conv_lhs => rw [hp.2.2, hq.2.2]
    rfl
  refine (sq_le_sq₀ (size_nonneg _) (mul_nonneg hL (size_nonneg _))).1 ?_
  rw [mul_pow, size_sq, size_sq, hA, size2_matFun hp hq, size2_matFun hp hq, Finset.mul_sum]
  refine Finset.sum_le_sum fun i _ => ?_
  rw [Finset.mul_sum]
  refine Finset.sum_le_sum fun j _ => ?_
  rw [← mul_assoc, ← mul_pow L]
  have h1 : ‖g (p.1 i) - g (q.1 j)‖ ≤ L * ‖((p.1 i : ℝ) : ℂ) - ((q.1 j : ℝ) : ℂ)‖ := by
    rw [← Complex.ofReal_sub, Complex.norm_real, Real.norm_eq_abs]
    exact hg _ _
  exact mul_le_mul_of_nonneg_right (pow_le_pow_left₀ (norm_nonneg _) h1 2) (sq_nonneg _)

theorem entry_le_size (X : Matrix o o ℂ) (a b : o) : ‖X a b‖ ≤ size X := by
  refine Real.le_sqrt_of_sq_le ?_
  refine (Finset.single_le_sum (f := fun b => ‖X a b‖ ^ 2) (fun b _ => sq_nonneg _) (Finset.mem_univ b)).trans ?_
  exact Finset.single_le_sum (f := fun a => ∑ b, ‖X a b‖ ^ 2) (fun a _ => Finset.sum_nonneg fun b _ => sq_nonneg _) (Finset.mem_univ a)

/-- a change of the first matrix -/
theorem dbl_left {A A' B : Matrix o o ℂ} {p p' q : (o → ℝ) × Matrix o o ℂ} (hp : Diag A p) (hp' : Diag A' p') (hq : Diag B q)
    {h : ℝ → ℝ → ℂ} {L : ℝ} (hL : 0 ≤ L) (hh : ∀ x x' y, ‖h x' y - h x y‖ ≤ L * |x' - x|) (a b c d : o) :
    ‖dbl p' q h a b c d - dbl p q h a b c d‖ ≤ L * size (A' - A) := by
  have e : ∀ p : (o → ℝ) × Matrix o o ℂ, dbl p q h a b c d = ∑ j, q.2 c j * q.2ᴴ j b * matFun p (fun x => h x (q.1 j)) a d := by
    intro p
    unfold dbl
    rw [Finset.sum_comm]
    refine Finset.sum_congr rfl fun j _ => ?_
    rw [matFun_apply, Finset.mul_sum]
    refine Finset.sum_congr rfl fun i _ => ?_
    ring
  rw [e, e, ← Finset.sum_sub_distrib]
  simp only [← mul_sub]
  calc ‖∑ j, q.2 c j * q.2ᴴ j b * (matFun p' (fun x => h x (q.1 j)) a d - matFun p (fun x => h x (q.1 j)) a d)‖
      ≤ ∑ j, ‖q.2 c j * q.2ᴴ j b‖ * (L * size (A' - A)) := by
        refine (norm_sum_le _ _).trans (Finset.sum_le_sum fun j _ => ?_)
        rw [norm_mul]
        refine mul_le_mul_of_nonneg_left ?_ (norm_nonneg _)
        rw [← Matrix.sub_apply]
        exact (entry_le_size _ a d).trans (matFun_lip hp' hp hL fun x y => hh y x (q.1 j))
    _ ≤ 1 * (L * size (A' - A)) := by
        rw [← Finset.sum_mul]
        exact mul_le_mul_of_nonneg_right (rows_le hq c b) (mul_nonneg hL (size_nonneg _))
    _ = _ := one_mul _

/-- a change of the second matrix -/
theorem dbl_right {A B B' : Matrix o o ℂ} {p q q' : (o → ℝ) × Matrix o o ℂ} (hp : Diag A p) (hq : Diag B q) (hq' : Diag B' q')
    {h : ℝ → ℝ → ℂ} {L : ℝ} (hL : 0 ≤ L) (hh : ∀ x y y', ‖h x y' - h x y‖ ≤ L * |y' - y|) (a b c d : o) :
    ‖dbl p q' h a b c d - dbl p q h a b c d‖ ≤ L * size (B' - B) := by
  have e : ∀ q : (o → ℝ) × Matrix o o ℂ, dbl p q h a b c d = dbl q p (fun y x => h x y) c d a b := by
    intro q
    unfold dbl
    rw [Finset.sum_comm]
    refine Finset.sum_congr rfl fun j _ => Finset.sum_congr rfl fun i _ => ?_
    ring
  rw [e, e]
  exact dbl_left hq hq' hp hL (fun y y' x => hh x y y') c d a b

end Fun

/-! ## The factor without tolerance -/

section Exact

variable {beta : ℝ} {z : ℂ}

/-- the factor with its limit for equal levels -/
def smooth (beta : ℝ) (z : ℂ) (x y : ℝ) : ℂ :=
  if z = 0 ∧ y = x then ((beta * slope (x * beta) : ℝ) : ℂ)
  else ((fermi (x * beta) - fermi (y * beta) : ℝ) : ℂ) / (z + ((y - x : ℝ) : ℂ))

theorem smooth_close (hb : 0 ≤ beta) {tol : ℝ} (h0 : 0 < tol) (hz : ‖z‖ < tol → z = 0) (x y : ℝ) :
    ‖totalFactor tol beta z x y - smooth beta z x y‖ ≤ beta ^ 2 / 4 * tol := by
  have ht0 : 0 ≤ beta ^ 2 / 4 * tol := by positivity
  unfold totalFactor smooth
  dsimp only
  by_cases h1 : ‖z‖ < tol ∧ |y - x| < tol
  · have hz0 := hz h1.1
    rw [if_pos h1, degenerate_factor]
    by_cases h2 : z = 0 ∧ y = x
    · rw [if_pos h2, sub_self, norm_zero]
      exact ht0
    · rw [if_neg h2]
      have hxy : y ≠ x := fun h => h2 ⟨hz0, h⟩
      rw [hz0, zero_add, ← Complex.ofReal_div, ← Complex.ofReal_sub, Complex.norm_real, Real.norm_eq_abs, abs_sub_comm]
      exact (factor_close hb hxy).trans (mul_le_mul_of_nonneg_left h1.2.le (by positivity))
  · have h2 : ¬ (z = 0 ∧ y = x) := fun h => h1 ⟨by rw [h.1, norm_zero]; exact h0, by rw [h.2, sub_self, abs_zero]; exact h0⟩
    rw [if_neg h1, if_neg h2, sub_self, norm_zero]
    exact ht0

theorem smooth_regular {tol : ℝ} (h0 : 0 < tol) (hz : tol ≤ ‖z‖) (x y : ℝ) : totalFactor tol beta z x y = smooth beta z x y := by
  unfold totalFactor smooth
  dsimp only
  rw [if_neg fun h => absurd h.1 (not_lt.2 hz), if_neg]
  rintro ⟨h, -⟩
  rw [h, norm_zero] at hz
  linarith

theorem smooth_swap (x y : ℝ) : smooth beta z x y = smooth beta (-z) y x := by
  unfold smooth
  by_cases h : z = 0 ∧ y = x
  · rw [if_pos h, if_pos ⟨by rw [h.1, neg_zero], h.2.symm⟩, h.2]
  · rw [if_neg h, if_neg fun h' => h ⟨neg_eq_zero.1 h'.1, h'.2.symm⟩]
    push_cast
    rw [← neg_div_neg_eq]
    congr 1 <;> ring

/-- at zero frequency: mean of the slope between the two levels -/
theorem smooth_mean (beta x y : ℝ) :
    smooth beta 0 x y = ((∫ s in (0 : ℝ)..1, beta * slope ((y + s * (x - y)) * beta) : ℝ) : ℂ) := by
  unfold smooth
  by_cases h : y = x
  · rw [if_pos ⟨rfl, h⟩, h]
    simp
  · rw [if_neg fun h' => h h'.2, zero_add, ← Complex.ofReal_div]
    congr 1
    have hne : x - y ≠ 0 := sub_ne_zero.2 fun h' => h h'.symm
    have hd : ∀ s ∈ Set.uIcc (0 : ℝ) 1, HasDerivAt (fun s : ℝ => -fermi ((y + s * (x - y)) * beta) / (x - y))
        (beta * slope ((y + s * (x - y)) * beta)) s := by
      intro s _
      have h1 : HasDerivAt (fun s : ℝ => (y + s * (x - y)) * beta) ((x - y) * beta) s := by
        have := (((hasDerivAt_id s).mul_const (x - y)).const_add y).mul_const beta
        simpa using this
      have h2 := ((HasDerivAt.comp s (h₂ := fermi) (fermi_slope _) h1).neg).div_const (x - y)
      refine HasDerivAt.congr_deriv h2 ?_
      field_simp
    have hc : Continuous slope := continuous_iff_continuousAt.2 fun x => (slope_deriv x).continuousAt
    rw [intervalIntegral.integral_eq_sub_of_hasDerivAt hd (Continuous.intervalIntegrable (by fun_prop) _ _)]
    rw [one_mul, zero_mul, add_zero, add_sub_cancel, show y - x = -(x - y) by ring]
    field_simp
    ring

/-- the factor as a function of the first level -/
theorem smooth_lip (hb : 0 ≤ beta) (hz : z.re = 0) (x x' y : ℝ) :
    ‖smooth beta z x' y - smooth beta z x y‖ ≤ (beta ^ 2 / 4 + beta / (4 * ‖z‖)) * |x' - x| := by
  by_cases h0 : z = 0
  · rw [h0, norm_zero, mul_zero, div_zero, add_zero, smooth_mean, smooth_mean, ← Complex.ofReal_sub, Complex.norm_real]
    have hc : Continuous slope := continuous_iff_continuousAt.2 fun x => (slope_deriv x).continuousAt
    rw [← intervalIntegral.integral_sub (Continuous.intervalIntegrable (by fun_prop) _ _) (Continuous.intervalIntegrable (by fun_prop) _ _)]
    have := intervalIntegral.norm_integral_le_of_norm_le_const (a := (0 : ℝ)) (b := 1) (C := beta ^ 2 / 4 * |x' - x|)
      (f := fun s => beta * slope ((y + s * (x' - y)) * beta) - beta * slope ((y + s * (x - y)) * beta)) (fun s hs => ?_)
    · rwa [sub_zero, abs_one, mul_one] at this
    · rw [Set.uIoc_of_le zero_le_one] at hs
      rw [← mul_sub, Real.norm_eq_abs, abs_mul, abs_of_nonneg hb]
      have h3 := slope_lip ((y + s * (x - y)) * beta) ((y + s * (x' - y)) * beta)
      rw [show (y + s * (x' - y)) * beta - (y + s * (x - y)) * beta = s * (x' - x) * beta by ring, abs_mul, abs_mul, abs_of_nonneg hb,
        abs_of_pos hs.1] at h3
      have h4 : s * |x' - x| ≤ |x' - x| := mul_le_of_le_one_left (abs_nonneg _) hs.2
      have h5 := mul_le_mul_of_nonneg_left h3 hb
      have h6 := mul_le_mul_of_nonneg_left h4 (show 0 ≤ beta ^ 2 / 4 by positivity)
      calc beta * |slope ((y + s * (x' - y)) * beta) - slope ((y + s * (x - y)) * beta)| ≤ beta * (1 / 4 * (s * |x' - x| * beta)) := h5
        _ = beta ^ 2 / 4 * (s * |x' - x|) := by ring
        _ ≤ _ := h6
  · have hzp : 0 < ‖z‖ := norm_pos_iff.2 h0
    have him : ∀ t : ℝ, ‖z‖ ≤ ‖z + t‖ := by
      intro t
      have h1 : ‖z‖ = |z.im| := by rw [← Complex.abs_im_eq_norm.2 hz]
      rw [h1]
      have := Complex.abs_im_le_norm (z + t)
      rwa [Complex.add_im, Complex.ofReal_im, add_zero] at this
    have hne : ∀ t : ℝ, z + ((y - t : ℝ) : ℂ) ≠ 0 := fun t h => by
      have := him (y - t)
      rw [h, norm_zero] at this
      linarith
    have e : ∀ x, smooth beta z x y = ((fermi (x * beta) - fermi (y * beta) : ℝ) : ℂ) / (z + ((y - x : ℝ) : ℂ)) := fun x =>
      if_neg fun h => h0 h.1
    have hd : ∀ t : ℝ, HasDerivAt (fun t : ℝ => ((fermi (t * beta) - fermi (y * beta) : ℝ) : ℂ) / (z + ((y - t : ℝ) : ℂ)))
        ((((fermi (t * beta) - fermi (y * beta) : ℝ) : ℂ) - ((beta * slope (t * beta) : ℝ) : ℂ) * (z + ((y - t : ℝ) : ℂ)))
          / (z + ((y - t : ℝ) : ℂ)) ^ 2) t := by
      intro t
      have h1 : HasDerivAt (fun t : ℝ => fermi (t * beta) - fermi (y * beta)) (-(beta * slope (t * beta))) t := by
        have := (HasDerivAt.comp t (h₂ := fermi) (h := fun y : ℝ => y * beta) (fermi_slope (t * beta))
          ((hasDerivAt_id t).mul_const beta)).sub_const (fermi (y * beta))
        refine HasDerivAt.congr_deriv this ?_
        simp
        ring
      have h2 : HasDerivAt (fun t : ℝ => y - t) (-1) t := (hasDerivAt_id t).const_sub y
      have h3 := (h1.ofReal_comp).div ((h2.ofReal_comp).const_add z) (hne t)
      refine HasDerivAt.congr_deriv h3 ?_
      push_cast
      ring
    rw [e, e]
    refine Convex.norm_image_sub_le_of_norm_hasDerivWithin_le (s := Set.univ) (fun t _ => (hd t).hasDerivWithinAt) (fun t _ => ?_)
      convex_univ (Set.mem_univ x) (Set.mem_univ x')
    have hDp : 0 < ‖z + ((y - t : ℝ) : ℂ)‖ := norm_pos_iff.2 (hne t)
    have hD1 := far hz (y - t)
    have hD2 := him (y - t)
    set D := ‖z + ((y - t : ℝ) : ℂ)‖
    have hn1 : |fermi (t * beta) - fermi (y * beta) - beta * slope (t * beta) * (y - t)| ≤ beta ^ 2 / 4 * |y - t| ^ 2 := by
      by_cases hyt : y = t
      · rw [hyt]; simp
      · have h1 := factor_close hb hyt
        have h2 := mul_le_mul_of_nonneg_right h1 (abs_nonneg (y - t))
        rw [← abs_mul, sub_mul, div_mul_cancel₀ _ (sub_ne_zero.2 hyt)] at h2
        rw [sq |y - t|, ← mul_assoc]
        exact h2
    have hn2 : ‖((fermi (t * beta) - fermi (y * beta) : ℝ) : ℂ) - ((beta * slope (t * beta) : ℝ) : ℂ) * (z + ((y - t : ℝ) : ℂ))‖
        ≤ beta ^ 2 / 4 * |y - t| ^ 2 + beta / 4 * ‖z‖ := by
      have e1 : ((fermi (t * beta) - fermi (y * beta) : ℝ) : ℂ) - ((beta * slope (t * beta) : ℝ) : ℂ) * (z + ((y - t : ℝ) : ℂ))
          = ((fermi (t * beta) - fermi (y * beta) - beta * slope (t * beta) * (y - t) : ℝ) : ℂ) - ((beta * slope (t * beta) : ℝ) : ℂ) * z := by
        push_cast
        ring
      rw [e1]
      refine (norm_sub_le _ _).trans (add_le_add ?_ ?_)
      · rw [Complex.norm_real]
        exact hn1
      · rw [norm_mul, Complex.norm_real, Real.norm_eq_abs, abs_of_nonneg (mul_nonneg hb (slope_pos _).le)]
        refine mul_le_mul_of_nonneg_right ?_ (norm_nonneg _)
        have := mul_le_mul_of_nonneg_left (slope_le (t * beta)) hb
        linarith
    rw [norm_div, norm_pow, div_le_iff₀ (by positivity)]
    refine hn2.trans ?_
    have h1 : |y - t| ^ 2 ≤ D ^ 2 := pow_le_pow_left₀ (abs_nonneg _) hD1 2
    have h2 : beta / 4 * ‖z‖ ≤ beta / (4 * ‖z‖) * D ^ 2 := by
      have h3 : ‖z‖ ^ 2 ≤ D ^ 2 := pow_le_pow_left₀ (norm_nonneg _) hD2 2
      have h4 : beta / 4 * ‖z‖ = beta / (4 * ‖z‖) * ‖z‖ ^ 2 := by field_simp
      rw [h4]
      exact mul_le_mul_of_nonneg_left h3 (by positivity)
    have h3 := mul_le_mul_of_nonneg_left h1 (show 0 ≤ beta ^ 2 / 4 by positivity)
    calc beta ^ 2 / 4 * |y - t| ^ 2 + beta / 4 * ‖z‖ ≤ beta ^ 2 / 4 * D ^ 2 + beta / (4 * ‖z‖) * D ^ 2 := add_le_add h3 h2
      _ = _ := by ring

theorem smooth_lip_right (hb : 0 ≤ beta) (hz : z.re = 0) (x y y' : ℝ) :
    ‖smooth beta z x y' - smooth beta z x y‖ ≤ (beta ^ 2 / 4 + beta / (4 * ‖z‖)) * |y' - y| := by
  rw [smooth_swap x y', smooth_swap x y]
  have := smooth_lip (z := -z) hb (by simp [hz]) y y' x
  rwa [norm_neg] at this

end Exact

/-! ## The whole function -/

section Whole

variable {d : ℕ} {n : Fin d → ℕ} [∀ i, NeZero (n i)] {o : Type*} [Fintype o] [DecidableEq o]

theorem pair_lip {beta : ℝ} {z : ℂ} (hb : 0 ≤ beta) (hz : z.re = 0) {A A' B B' : Matrix o o ℂ} {p p' q q' : (o → ℝ) × Matrix o o ℂ}
    (hp : Diag A p) (hp' : Diag A' p') (hq : Diag B q) (hq' : Diag B' q') (a b c d : o) :
    ‖dbl p' q' (smooth beta z) a b c d - dbl p q (smooth beta z) a b c d‖
      ≤ (beta ^ 2 / 4 + beta / (4 * ‖z‖)) * (size (A' - A) + size (B' - B)) := by
  have hL : 0 ≤ beta ^ 2 / 4 + beta / (4 * ‖z‖) := by positivity
  have h1 := dbl_left hp hp' hq hL (smooth_lip hb hz) a b c d
  have h2 := dbl_right hp' hq hq' hL (smooth_lip_right hb hz) a b c d
  have h3 := norm_sub_le_norm_sub_add_norm_sub (dbl p' q' (smooth beta z) a b c d) (dbl p' q (smooth beta z) a b c d)
    (dbl p q (smooth beta z) a b c d)
  linarith

theorem dbl_close {m m' : Matrix o o ℂ} {p q : (o → ℝ) × Matrix o o ℂ} (hp : Diag m p) (hq : Diag m' q) {h h' : ℝ → ℝ → ℂ} {B : ℝ}
    (h0 : 0 ≤ B) (hB : ∀ x y, ‖h x y - h' x y‖ ≤ B) (a b c d : o) : ‖dbl p q h a b c d - dbl p q h' a b c d‖ ≤ B := by
  unfold dbl
  rw [← Finset.sum_sub_distrib]
  simp only [← Finset.sum_sub_distrib, ← mul_sub]
  exact dbl_bound hp hq (fun i j => hB _ _) h0 a b c d

variable {beta : ℝ} {z : ℂ} (hb : 0 ≤ beta) (hz : z.re = 0) (ranks ranks' : ℕ) (hr : 0 < ranks) (hr' : 0 < ranks') (eig eig' : Eig o)
  (hs : EigSpec eig) (hs' : EigSpec eig') (tol mu : ℝ) (h0 : 0 < tol)
  (kmesh : List (Lat n)) (hnd : kmesh.Nodup) (hall : ∀ k, k ∈ kmesh) (e e' : Lat n → Matrix o o ℂ) (he : ∀ k, (e k).IsHermitian)
  (he' : ∀ k, (e' k).IsHermitian) (t : ℝ) (ht : ∀ k, size (e' k - e k) ≤ t) (q : Lat n) (a b c d : o)

include hb hz hr hr' hs hs' h0 hnd hall he he' ht

theorem difference {B : ℝ} (hB : 0 ≤ B) (hc : ∀ x y, ‖totalFactor tol beta z x y - smooth beta z x y‖ ≤ B) :
    ‖lindhard ranks' eig' tol beta mu kmesh e' z q a b c d - lindhard ranks eig tol beta mu kmesh e z q a b c d‖
      ≤ (beta ^ 2 / 2 + beta / (2 * ‖z‖)) * t + 2 * B := by
  rw [lindhard_eq ranks hr _ _ _ _ _ hnd hall, lindhard_eq ranks' hr' _ _ _ _ _ hnd hall]
  simp only [Pi.smul_apply, Finset.sum_apply, smul_eq_mul]
  rw [← mul_sub, ← Finset.sum_sub_distrib]
  refine mean_bound fun k => ?_
  have p := sys_diag hs mu he
  have p' := sys_diag hs' mu he'
  have h1 := pair_lip hb hz (p k) (p' k) (p (k + q)) (p' (k + q)) a b c d
  have e1 : ∀ k, (e' k - (mu : ℂ) • (1 : Matrix o o ℂ)) - (e k - (mu : ℂ) • 1) = e' k - e k := fun k => by abel
  rw [e1, e1] at h1
  have h2 := dbl_close (p k) (p (k + q)) hB hc a b c d
  have h3 := dbl_close (p' k) (p' (k + q)) hB hc a b c d
  have h4 : (beta ^ 2 / 4 + beta / (4 * ‖z‖)) * (size (e' k - e k) + size (e' (k + q) - e (k + q)))
      ≤ (beta ^ 2 / 4 + beta / (4 * ‖z‖)) * (t + t) :=
    mul_le_mul_of_nonneg_left (add_le_add (ht k) (ht (k + q))) (by positivity)
  have h5 : (beta ^ 2 / 4 + beta / (4 * ‖z‖)) * (t + t) = (beta ^ 2 / 2 + beta / (2 * ‖z‖)) * t := by
    by_cases h : ‖z‖ = 0
    · rw [h]
      ring
    · field_simp
      ring
  have h6 := norm_sub_le_norm_sub_add_norm_sub (dbl (sys eig' mu e' k) (sys eig' mu e' (k + q)) (totalFactor tol beta z) a b c d)
    (dbl (sys eig' mu e' k) (sys eig' mu e' (k + q)) (smooth beta z) a b c d)
    (dbl (sys eig mu e k) (sys eig mu e (k + q)) (totalFactor tol beta z) a b c d)
  have h7 := norm_sub_le_norm_sub_add_norm_sub (dbl (sys eig' mu e' k) (sys eig' mu e' (k + q)) (smooth beta z) a b c d)
    (dbl (sys eig mu e k) (sys eig mu e (k + q)) (smooth beta z) a b c d)
    (dbl (sys eig mu e k) (sys eig mu e (k + q)) (totalFactor tol beta z) a b c d)
  rw [norm_sub_rev (dbl (sys eig mu e k) (sys eig mu e (k + q)) (smooth beta z) a b c d)] at h7
  linarith

/-- C133: at imaginary frequencies above the tolerance the Lindhard function changes by at most `β²/2 + β/(2|z|)` times the change of
the bands. -/
theorem C133_lindhard (hzt : tol ≤ ‖z‖) :
    ‖lindhard ranks' eig' tol beta mu kmesh e' z q a b c d - lindhard ranks eig tol beta mu kmesh e z q a b c d‖
      ≤ (beta ^ 2 / 2 + beta / (2 * ‖z‖)) * t := by
  have := difference hb hz ranks ranks' hr hr' eig eig' hs hs' tol mu h0 kmesh hnd hall e e' he he' t ht q a b c d le_rfl
    (fun x y => by rw [smooth_regular h0 hzt, sub_self, norm_zero])
  rwa [mul_zero, add_zero] at this

omit hz in
/-- C133 at zero frequency: the Lindhard function changes by at most `β²/2` times the change of the bands, up to jumps of at most `β²/2`
times the tolerance. Missing: continuity, which is violated (`C133_lindhard_violated`). -/
theorem C133_lindhard_static_partial :
    ‖lindhard ranks' eig' tol beta mu kmesh e' 0 q a b c d - lindhard ranks eig tol beta mu kmesh e 0 q a b c d‖
      ≤ beta ^ 2 / 2 * t + beta ^ 2 / 2 * tol := by
  have := difference hb (z := 0) rfl ranks ranks' hr hr' eig eig' hs hs' tol mu h0 kmesh hnd hall e e' he he' t ht q a b c d
    (B := beta ^ 2 / 4 * tol) (by positivity) (smooth_close hb h0 fun _ => rfl)
  rw [norm_zero, mul_zero, div_zero, add_zero] at this
  linarith

end Whole

end Verif.Stable
