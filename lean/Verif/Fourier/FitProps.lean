import Verif.Fourier.Fit
import Verif.Fourier.Props
import Mathlib.Analysis.Calculus.Taylor
import Mathlib.Analysis.Calculus.IteratedDeriv.Lemmas
import Mathlib.MeasureTheory.Integral.IntervalIntegral.TrapezoidalRule

/-!
# C100: the Fourier transform from imaginary time converges to the Fourier integral
-/

noncomputable section

set_option linter.unusedSectionVars false

namespace Verif.Fourier

open Complex

/-- weight of the error of the inverse Vandermonde matrix -/
def fitEps (j : Fin 8) : ℝ := if j.1 ≤ 1 then 1e-10 else 1e-6

theorem vInv_row (i : Fin 8) (j : Fin 8) :
    |(∑ m : Fin 8, vInv i m * ((m.1 : ℚ) + 1) ^ j.1) - if i = j then 1 else 0| ≤ if j.1 ≤ 1 then 1e-10 else 1e-6 := by
  revert i j
  decide +kernel

theorem vInv_sum (i : Fin 8) : ∑ m : Fin 8, |vInv i m| ≤ 700 := by
  revert i
  decide +kernel

theorem fit_row (i : Fin 8) (p d : Fin 8 → ℂ) (δ : ℝ)
    (h : ∀ m : Fin 8, ‖d m - ∑ j : Fin 8, p j * ((m.1 : ℂ) + 1) ^ j.1‖ ≤ δ) :
    ‖∑ m, (vInv i m : ℂ) * d m - p i‖ ≤ ∑ j, fitEps j * ‖p j‖ + 700 * δ := by
  have hsplit : ∑ m, (vInv i m : ℂ) * d m - p i
      = ∑ j, (((∑ m : Fin 8, vInv i m * ((m.1 : ℚ) + 1) ^ j.1) - if i = j then 1 else 0 : ℚ) : ℂ) * p j
        + ∑ m, (vInv i m : ℂ) * (d m - ∑ j : Fin 8, p j * ((m.1 : ℂ) + 1) ^ j.1) := by
    have e1 : ∑ m, (vInv i m : ℂ) * (d m - ∑ j : Fin 8, p j * ((m.1 : ℂ) + 1) ^ j.1)
        = ∑ m, (vInv i m : ℂ) * d m - ∑ j : Fin 8, (∑ m : Fin 8, (vInv i m : ℂ) * ((m.1 : ℂ) + 1) ^ j.1) * p j := by
      simp only [mul_sub, Finset.sum_sub_distrib, Finset.mul_sum, Finset.sum_mul]
      congr 1
      rw [Finset.sum_comm]
      refine Finset.sum_congr rfl fun j _ => Finset.sum_congr rfl fun m _ => ?_
      ring
    have e2 : ∑ j, (((∑ m : Fin 8, vInv i m * ((m.1 : ℚ) + 1) ^ j.1) - if i = j then 1 else 0 : ℚ) : ℂ) * p j
        = ∑ j : Fin 8, (∑ m : Fin 8, (vInv i m : ℂ) * ((m.1 : ℂ) + 1) ^ j.1) * p j - p i := by
      have : ∀ j, (((∑ m : Fin 8, vInv i m * ((m.1 : ℚ) + 1) ^ j.1) - if i = j then 1 else 0 : ℚ) : ℂ) * p j
          = (∑ m : Fin 8, (vInv i m : ℂ) * ((m.1 : ℂ) + 1) ^ j.1) * p j - if i = j then p j else 0 := by
        intro j
        push_cast
        split_ifs <;> simp [sub_mul]
      rw [Finset.sum_congr rfl fun j _ => this j, Finset.sum_sub_distrib, Finset.sum_ite_eq]
      simp
    rw [e1, e2]
    ring
  rw [hsplit]
  refine (norm_add_le _ _).trans (add_le_add ?_ ?_)
  · refine (norm_sum_le _ _).trans (Finset.sum_le_sum fun j _ => ?_)
    rw [norm_mul]
    refine mul_le_mul_of_nonneg_right ?_ (norm_nonneg _)
    rw [← Complex.ofReal_ratCast, Complex.norm_real, Real.norm_eq_abs, ← Rat.cast_abs]
    have := vInv_row i j
    have hc : ((if j.1 ≤ 1 then 1e-10 else 1e-6 : ℚ) : ℝ) = fitEps j := by
      unfold fitEps
      split_ifs <;> norm_num
    rw [← hc]
    exact_mod_cast this
  · refine (norm_sum_le _ _).trans ?_
    have hd : 0 ≤ δ := (norm_nonneg _).trans (h 0)
    calc ∑ m, ‖(vInv i m : ℂ) * (d m - ∑ j : Fin 8, p j * ((m.1 : ℂ) + 1) ^ j.1)‖
        ≤ ∑ m, ((|vInv i m| : ℚ) : ℝ) * δ := by
          refine Finset.sum_le_sum fun m _ => ?_
          rw [norm_mul, ← Complex.ofReal_ratCast, Complex.norm_real, Real.norm_eq_abs, ← Rat.cast_abs]
          exact mul_le_mul_of_nonneg_left (h m) (by positivity)
      _ = ((∑ m, |vInv i m| : ℚ) : ℝ) * δ := by rw [← Finset.sum_mul, Rat.cast_sum]
      _ ≤ 700 * δ := by
          refine mul_le_mul_of_nonneg_right ?_ hd
          exact_mod_cast vInv_sum i

/-- the fit at one end -/
theorem fit_side (h : ℝ) (hh : 0 < h) (f : ℕ → ℂ) (c : Fin 9 → ℂ) (rho : ℝ)
    (hf : ∀ m ≤ 8, ‖f m - ∑ j, c j * (m * h : ℝ) ^ j.1‖ ≤ rho) (i : Fin 8) :
    ‖∑ m : Fin 8, (vInv i m : ℂ) * ((f (m + 1) - f 0) / (((m.1 + 1 : ℕ) * h : ℝ) : ℂ)) - c i.succ * (h : ℂ) ^ i.1‖
      ≤ ∑ j : Fin 8, fitEps j * (‖c j.succ‖ * h ^ j.1) + 1400 * (rho / h) := by
  have hrow := fit_row i (fun j => c j.succ * (h : ℂ) ^ j.1)
    (fun m => (f (m + 1) - f 0) / (((m.1 + 1 : ℕ) * h : ℝ) : ℂ)) (2 * rho / h) ?_
  · refine hrow.trans (le_of_eq ?_)
    congr 1
    · refine Finset.sum_congr rfl fun j _ => ?_
      rw [norm_mul, norm_pow, Complex.norm_real, Real.norm_eq_abs, abs_of_pos hh]
    · ring
  · intro m
    have hx : 0 < ((m.1 + 1 : ℕ) * h : ℝ) := by positivity
    have hx' : (((m.1 + 1 : ℕ) * h : ℝ) : ℂ) ≠ 0 := by exact_mod_cast hx.ne'
    have e : (f (m + 1) - f 0) / (((m.1 + 1 : ℕ) * h : ℝ) : ℂ) - ∑ j : Fin 8, c j.succ * (h : ℂ) ^ j.1 * ((m.1 : ℂ) + 1) ^ j.1
        = ((f (m + 1) - ∑ j, c j * (((m.1 + 1 : ℕ) * h : ℝ) : ℂ) ^ j.1) - (f 0 - ∑ j, c j * (((0 : ℕ) * h : ℝ) : ℂ) ^ j.1))
          / (((m.1 + 1 : ℕ) * h : ℝ) : ℂ) := by
      rw [eq_div_iff hx', sub_mul, div_mul_cancel₀ _ hx', Finset.sum_mul]
      have h1 : ∀ j : Fin 8, c j.succ * (h : ℂ) ^ j.1 * ((m.1 : ℂ) + 1) ^ j.1 * (((m.1 + 1 : ℕ) * h : ℝ) : ℂ)
          = c j.succ * (((m.1 + 1 : ℕ) * h : ℝ) : ℂ) ^ (j.succ.1) := by
        intro j
        rw [Fin.val_succ, pow_succ]
        push_cast
        rw [mul_pow]
        ring
      rw [Finset.sum_congr rfl fun j _ => h1 j,
        Fin.sum_univ_succ (n := 8) (f := fun j : Fin 9 => c j * (((m.1 + 1 : ℕ) * h : ℝ) : ℂ) ^ j.1),
        Fin.sum_univ_succ (n := 8) (f := fun j : Fin 9 => c j * (((0 : ℕ) * h : ℝ) : ℂ) ^ j.1)]
      simp
      ring
    rw [e, norm_div, Complex.norm_real, Real.norm_eq_abs, abs_of_pos hx]
    have hr : 0 ≤ rho := (norm_nonneg _).trans (hf 0 (by norm_num))
    have hm : m.1 + 1 ≤ 8 := m.2
    refine div_le_div₀ (by positivity) ?_ hh ?_
    · refine (norm_sub_le _ _).trans ?_
      have h1 := hf (m.1 + 1) hm
      have h2 := hf 0 (by norm_num)
      linarith
    · push_cast
      nlinarith [Nat.cast_nonneg (α := ℝ) m.1]

/-- error of the fit for coefficients `c`, `c'` and step `h` -/
def fitBound (h rho : ℝ) (c c' : Fin 9 → ℂ) : ℝ :=
  ∑ j : Fin 8, fitEps j * ((‖c j.succ‖ + ‖c' j.succ‖) * h ^ j.1) + 2800 * (rho / h)

/-- C100: the moments for a function close to polynomials of degree eight at both ends: at `0` with the coefficients `c`,
at `β` (backwards) with the coefficients `c'`. -/
theorem C100_fit (s : Stat) (beta : ℝ) (hb : 0 < beta) (L : ℕ) (hL : 8 ≤ L) (gt : ℕ → ℂ) (c c' : Fin 9 → ℂ) (rho : ℝ)
    (hl : ∀ m ≤ 8, ‖gt m - ∑ j, c j * (m * (beta / L) : ℝ) ^ j.1‖ ≤ rho)
    (hr : ∀ m ≤ 8, ‖gt (L - m) - ∑ j, c' j * (m * (beta / L) : ℝ) ^ j.1‖ ≤ rho) :
    ∃ m2 m3, fitDerivatives s beta L gt = .ok (m2, m3) ∧
      ‖m2 - (c 1 + boundarySign s * c' 1)‖ ≤ fitBound (beta / L) rho c c' ∧
      ‖m3 - -2 * (c 2 - boundarySign s * c' 2)‖ ≤ 2 / (beta / L) * fitBound (beta / L) rho c c' := by
  have hL0 : (0 : ℝ) < L := by exact_mod_cast (by omega : 0 < L)
  set h : ℝ := beta / L with hh
  have hpos : 0 < h := by positivity
  have hc : (h : ℂ) ≠ 0 := by exact_mod_cast hpos.ne'
  have ht : ∀ m : ℕ, tauOf beta L m = m * h := by
    intro m
    rw [tauOf, hh]
    ring
  have hs : ‖boundarySign s‖ = 1 := by cases s <;> simp [boundarySign]
  unfold fitDerivatives
  rw [if_neg (by omega)]
  refine ⟨_, _, rfl, ?_⟩
  have left := fun i => fit_side h hpos gt c rho hl i
  have right := fun i => fit_side h hpos (fun m => gt (L - m)) c' rho hr i
  set gl : Fin 8 → ℂ := fun i => ∑ m : Fin 8, (vInv i m : ℂ) * ((gt (m + 1) - gt 0) / (((m.1 + 1 : ℕ) * h : ℝ) : ℂ)) with hgl
  set gr : Fin 8 → ℂ := fun i => ∑ m : Fin 8, (vInv i m : ℂ) * ((gt (L - (m + 1)) - gt (L - 0)) / (((m.1 + 1 : ℕ) * h : ℝ) : ℂ))
    with hgr
  have el : ∀ i, ∑ m : Fin 8, (vInv i m : ℂ) * ((gt (m + 1) - gt 0) / (tauOf beta L (m + 1) : ℝ)) = gl i := by
    intro i
    simp only [ht, hgl]
  have er : ∀ i, ∑ m : Fin 8, (vInv i m : ℂ) * ((gt L - gt (L - (m + 1))) / (tauOf beta L (m + 1) : ℝ)) = -gr i := by
    intro i
    simp only [ht, hgr, Nat.sub_zero, ← Finset.sum_neg_distrib]
    refine Finset.sum_congr rfl fun m _ => ?_
    ring
  simp only [el, er]
  have hB : ∀ i : Fin 8, ‖gl i - c i.succ * (h : ℂ) ^ i.1‖ + ‖gr i - c' i.succ * (h : ℂ) ^ i.1‖ ≤ fitBound h rho c c' := by
    intro i
    refine (add_le_add (left i) (right i)).trans (le_of_eq ?_)
    unfold fitBound
    simp only [add_mul, mul_add, Finset.sum_add_distrib]
    ring
  constructor
  · have h0 := hB 0
    have e : gl 0 - boundarySign s * -gr 0 - (c 1 + boundarySign s * c' 1)
        = (gl 0 - c (Fin.succ 0) * (h : ℂ) ^ ((0 : Fin 8) : ℕ)) + boundarySign s * (gr 0 - c' (Fin.succ 0) * (h : ℂ) ^ ((0 : Fin 8) : ℕ)) := by
      simp
      ring
    rw [e]
    refine (norm_add_le _ _).trans ?_
    rw [norm_mul, hs, one_mul]
    exact h0
  · have h1 := hB 1
    have e : -(gl 1 + boundarySign s * -gr 1) * 2 / (h : ℂ) - -2 * (c 2 - boundarySign s * c' 2)
        = (2 / (h : ℂ)) * (-(gl 1 - c (Fin.succ 1) * (h : ℂ) ^ ((1 : Fin 8) : ℕ))
          + boundarySign s * (gr 1 - c' (Fin.succ 1) * (h : ℂ) ^ ((1 : Fin 8) : ℕ))) := by
      have i1 : (Fin.succ 1 : Fin 9) = 2 := rfl
      have i2 : ((1 : Fin 8) : ℕ) = 1 := rfl
      rw [i1, i2, pow_one]
      field_simp
      ring
    rw [e, norm_mul]
    have hn : ‖(2 / (h : ℂ))‖ = 2 / h := by
      rw [norm_div, Complex.norm_real, Real.norm_eq_abs, abs_of_pos hpos]
      simp
    rw [hn]
    refine mul_le_mul_of_nonneg_left ?_ (by positivity)
    refine (norm_add_le _ _).trans ?_
    rw [norm_mul, hs, one_mul, norm_neg]
    exact h1

/-! ## Smooth functions -/

/-- Taylor coefficients at `0` -/
def taylorAt (f : ℝ → ℂ) (j : Fin 9) : ℂ := iteratedDeriv j.1 f 0 / (Nat.factorial j.1 : ℂ)

theorem taylor_side (f : ℝ → ℂ) (hf : ContDiff ℝ 9 f) (beta : ℝ) (hb : 0 < beta) :
    ∃ C, 0 ≤ C ∧ ∀ x ∈ Set.Icc 0 beta, ‖f x - ∑ j, taylorAt f j * (x : ℂ) ^ j.1‖ ≤ C * x ^ 9 := by
  obtain ⟨C, hC⟩ := exists_taylor_mean_remainder_bound (n := 8) hb.le
    (by exact_mod_cast hf.contDiffOn (s := Set.Icc 0 beta))
  refine ⟨|C|, abs_nonneg _, fun x hx => ?_⟩
  have h := hC x hx
  rw [taylor_within_apply, sub_zero] at h
  have e : ∑ k ∈ Finset.range (8 + 1), ((Nat.factorial k : ℝ)⁻¹ * x ^ k) • iteratedDerivWithin k f (Set.Icc 0 beta) 0
      = ∑ j, taylorAt f j * (x : ℂ) ^ j.1 := by
    rw [Finset.sum_range]
    refine Finset.sum_congr rfl fun j _ => ?_
    rw [iteratedDerivWithin_eq_iteratedDeriv (uniqueDiffOn_Icc hb)
      ((hf.of_le (by exact_mod_cast Nat.lt_succ_iff.1 (j.2.trans (by norm_num : 9 < 10)))).contDiffAt) ⟨le_rfl, hb.le⟩,
      taylorAt, Complex.real_smul]
    push_cast
    ring
  rw [e] at h
  refine h.trans (mul_le_mul_of_nonneg_right (le_abs_self C) ?_)
  have := hx.1
  positivity

/-- derivatives of the function read backwards from `β` -/
theorem taylor_reflect (f : ℝ → ℂ) (beta : ℝ) (j : ℕ) :
    iteratedDeriv j (fun x => f (beta - x)) 0 = (-1) ^ j * iteratedDeriv j f beta := by
  have h := iteratedDeriv_comp_neg (𝕜 := ℝ) j (fun z => f (beta + z)) 0
  rw [iteratedDeriv_comp_const_add, neg_zero] at h
  simp only [add_zero] at h
  have e : (fun x => f (beta - x)) = fun x => (fun z => f (beta + z)) (-x) := by
    funext x
    rw [sub_eq_add_neg]
  rw [e, h, Complex.real_smul]
  push_cast
  rfl

/-- C100: for nine times differentiable functions the fitted moments approach the jumps of the derivatives: the second moment
up to `1e-10` of the slopes, the third up to `2e-10` of the slopes over the step, the rounding of the tabulated matrix. -/
theorem C100_moments (s : Stat) (beta : ℝ) (hb : 0 < beta) (g : ℝ → ℂ) (hg : ContDiff ℝ 9 g) :
    ∃ C, 0 ≤ C ∧ ∀ L : ℕ, 8 ≤ L → ∃ m2 m3, fitDerivatives s beta L (fun t => g (tauOf beta L t)) = .ok (m2, m3) ∧
      ‖m2 - (deriv g 0 - boundarySign s * deriv g beta)‖ ≤ 1e-10 * (‖deriv g 0‖ + ‖deriv g beta‖) + C / L ∧
      ‖m3 - -(iteratedDeriv 2 g 0 - boundarySign s * iteratedDeriv 2 g beta)‖
        ≤ 2e-10 * (‖deriv g 0‖ + ‖deriv g beta‖) * (L / beta)
          + 1e-10 * (‖iteratedDeriv 2 g 0‖ + ‖iteratedDeriv 2 g beta‖) + C / L := by
  have hg' : ContDiff ℝ 9 fun x => g (beta - x) := hg.comp (contDiff_const.sub contDiff_id)
  obtain ⟨C1, h1, hC1⟩ := taylor_side g hg beta hb
  obtain ⟨C2, h2, hC2⟩ := taylor_side _ hg' beta hb
  set c := taylorAt g with hc
  set c' := taylorAt (fun x => g (beta - x)) with hc'
  set a : ℕ → ℝ := fun k => ‖iteratedDeriv k g 0‖ + ‖iteratedDeriv k g beta‖ with ha
  have hca : ∀ j : Fin 9, ‖c j‖ + ‖c' j‖ = a j.1 / (Nat.factorial j.1 : ℝ) := by
    intro j
    rw [hc, hc', taylorAt, taylorAt, taylor_reflect, norm_div, norm_div, norm_mul, norm_pow, norm_neg, norm_one, one_pow,
      one_mul, Complex.norm_natCast, ← add_div]
  have ha0 : ∀ k, 0 ≤ a k := fun k => by positivity
  set A : ℝ := (C1 + C2) * 8 ^ 9 with hA
  have hA0 : 0 ≤ A := by positivity
  refine ⟨(1e-10 * a 2 * beta + 1e-6 * (a 3 * beta ^ 2 + a 4 * beta ^ 3 + a 5 * beta ^ 4 + a 6 * beta ^ 5 + a 7 * beta ^ 6
    + a 8 * beta ^ 7) + 2800 * A * beta ^ 8) + (2e-6 * (a 3 * beta + a 4 * beta ^ 2 + a 5 * beta ^ 3 + a 6 * beta ^ 4
    + a 7 * beta ^ 5 + a 8 * beta ^ 6) + 5600 * A * beta ^ 7), ?_, fun L hL => ?_⟩
  · have := ha0 2
    have := ha0 3
    have := ha0 4
    have := ha0 5
    have := ha0 6
    have := ha0 7
    have := ha0 8
    positivity
  have hL1 : (1 : ℝ) ≤ L := by exact_mod_cast (by omega : 1 ≤ L)
  have hL0 : (0 : ℝ) < L := by linarith
  set h : ℝ := beta / L with hh
  have hpos : 0 < h := by positivity
  have hp : ∀ k : ℕ, h ^ (k + 1) ≤ beta ^ (k + 1) / L := by
    intro k
    rw [hh, div_pow]
    refine div_le_div_of_nonneg_left (by positivity) hL0 ?_
    exact le_self_pow₀ hL1 (by omega)
  have hmem : ∀ m : ℕ, m ≤ 8 → (m * h : ℝ) ∈ Set.Icc 0 beta := by
    intro m hm
    refine ⟨by positivity, ?_⟩
    have hmL : (m : ℝ) ≤ L := by exact_mod_cast (by omega : m ≤ L)
    calc (m : ℝ) * h ≤ L * h := mul_le_mul_of_nonneg_right hmL hpos.le
      _ = beta := by rw [hh]; field_simp
  have hrho : ∀ (C : ℝ), 0 ≤ C → C ≤ C1 + C2 → ∀ m : ℕ, m ≤ 8 → C * (m * h) ^ 9 ≤ A * h ^ 9 := by
    intro C hC hC' m hm
    have hm8 : (m : ℝ) ≤ 8 := by exact_mod_cast hm
    rw [hA, mul_pow, mul_assoc]
    refine mul_le_mul hC' ?_ (by positivity) (by positivity)
    refine mul_le_mul_of_nonneg_right ?_ (by positivity)
    exact pow_le_pow_left₀ (by positivity) hm8 9
  have hleft : ∀ m ≤ 8, ‖g (tauOf beta L m) - ∑ j, c j * (m * (beta / L) : ℝ) ^ j.1‖ ≤ A * h ^ 9 := by
    intro m hm
    have h3 := hC1 _ (hmem m hm)
    have e : tauOf beta L m = m * h := by rw [tauOf, hh]; ring
    simp only [e, ← hh]
    exact h3.trans (hrho C1 h1 (by linarith) m hm)
  have hright : ∀ m ≤ 8, ‖g (tauOf beta L (L - m)) - ∑ j, c' j * (m * (beta / L) : ℝ) ^ j.1‖ ≤ A * h ^ 9 := by
    intro m hm
    have h3 := hC2 _ (hmem m hm)
    have e : tauOf beta L (L - m) = beta - m * h := by
      rw [tauOf, hh, Nat.cast_sub (by omega)]
      field_simp
    simp only [e, ← hh]
    exact h3.trans (hrho C2 h2 (by linarith) m hm)
  obtain ⟨m2, m3, hfit, hm2, hm3⟩ := C100_fit s beta hb L hL (fun t => g (tauOf beta L t)) c c' (A * h ^ 9) hleft hright
  have hB : fitBound h (A * h ^ 9) c c' = 1e-10 * a 1 + 1e-10 * (a 2 / 2) * h + 1e-6 * (a 3 / 6 * h ^ 2 + a 4 / 24 * h ^ 3
      + a 5 / 120 * h ^ 4 + a 6 / 720 * h ^ 5 + a 7 / 5040 * h ^ 6 + a 8 / 40320 * h ^ 7) + 2800 * (A * h ^ 8) := by
    unfold fitBound
    simp only [Fin.sum_univ_eight, hca, fitEps]
    have : A * h ^ 9 / h = A * h ^ 8 := by field_simp
    rw [this]
    norm_num [Nat.factorial]
    ring
  have hd0 : c 1 + boundarySign s * c' 1 = deriv g 0 - boundarySign s * deriv g beta := by
    have e1 : c 1 = iteratedDeriv 1 g 0 / ((Nat.factorial 1 : ℕ) : ℂ) := rfl
    have e2 : c' 1 = iteratedDeriv 1 (fun x => g (beta - x)) 0 / ((Nat.factorial 1 : ℕ) : ℂ) := rfl
    rw [e1, e2, taylor_reflect, iteratedDeriv_one]
    norm_num
    ring
  have hd1 : -2 * (c 2 - boundarySign s * c' 2) = -(iteratedDeriv 2 g 0 - boundarySign s * iteratedDeriv 2 g beta) := by
    have e1 : c 2 = iteratedDeriv 2 g 0 / ((Nat.factorial 2 : ℕ) : ℂ) := rfl
    have e2 : c' 2 = iteratedDeriv 2 (fun x => g (beta - x)) 0 / ((Nat.factorial 2 : ℕ) : ℂ) := rfl
    rw [e1, e2, taylor_reflect]
    norm_num [Nat.factorial]
    ring
  have ha1 : ‖deriv g 0‖ + ‖deriv g beta‖ = a 1 := by rw [ha]; simp only [iteratedDeriv_one]
  have ha2 : ‖iteratedDeriv 2 g 0‖ + ‖iteratedDeriv 2 g beta‖ = a 2 := rfl
  rw [hd0, ← hh, hB] at hm2
  rw [hd1, ← hh, hB] at hm3
  rw [ha1, ha2]
  have hq : ∀ (j k : ℕ), 1 ≤ k → a j * h ^ k ≤ a j * beta ^ k / L := fun j k hk => by
    obtain ⟨k, rfl⟩ := Nat.exists_eq_add_of_le' hk
    rw [mul_div_assoc]
    exact mul_le_mul_of_nonneg_left (hp k) (ha0 j)
  have hqA : ∀ (k : ℕ), 1 ≤ k → A * h ^ k ≤ A * beta ^ k / L := fun k hk => by
    obtain ⟨k, rfl⟩ := Nat.exists_eq_add_of_le' hk
    rw [mul_div_assoc]
    exact mul_le_mul_of_nonneg_left (hp k) hA0
  have hz : ∀ (j k : ℕ), 0 ≤ a j * beta ^ k / L := fun j k => by
    have := ha0 j
    positivity
  have hzA : ∀ (k : ℕ), 0 ≤ A * beta ^ k / L := fun k => by positivity
  have hi : L / beta = 1 / h := by rw [hh]; field_simp
  have n1 : (1e-10 : ℝ) = 1 / 10000000000 := by norm_num
  have n2 : (2e-10 : ℝ) = 1 / 5000000000 := by norm_num
  have n3 : (1e-6 : ℝ) = 1 / 1000000 := by norm_num
  have n4 : (2e-6 : ℝ) = 1 / 500000 := by norm_num
  simp only [div_eq_mul_inv _ (L : ℝ)] at hq hqA hz hzA
  refine ⟨m2, m3, hfit, hm2.trans ?_, hm3.trans ?_⟩
  · rw [n1, n3, n4]
    rw [div_eq_mul_inv _ (L : ℝ)]
    linarith [hq 2 1 (by norm_num), hq 3 2 (by norm_num), hq 4 3 (by norm_num), hq 5 4 (by norm_num), hq 6 5 (by norm_num), hq 7 6 (by norm_num), hq 8 7 (by norm_num), hqA 8 (by norm_num), hz 3 1, hz 4 2, hz 5 3, hz 6 4, hz 7 5, hz 8 6,
      hzA 7, hz 2 1, hz 3 2, hz 4 3, hz 5 4, hz 6 5, hz 7 6, hz 8 7]
  · have e : 2 / h * (1e-10 * a 1 + 1e-10 * (a 2 / 2) * h + 1e-6 * (a 3 / 6 * h ^ 2 + a 4 / 24 * h ^ 3
        + a 5 / 120 * h ^ 4 + a 6 / 720 * h ^ 5 + a 7 / 5040 * h ^ 6 + a 8 / 40320 * h ^ 7) + 2800 * (A * h ^ 8))
        = 2e-10 * a 1 * (1 / h) + 1e-10 * a 2 + 2e-6 * (a 3 / 6 * h + a 4 / 24 * h ^ 2
        + a 5 / 120 * h ^ 3 + a 6 / 720 * h ^ 4 + a 7 / 5040 * h ^ 5 + a 8 / 40320 * h ^ 6) + 5600 * (A * h ^ 7) := by
      field_simp
      ring
    rw [e, hi, n1, n2, n3, n4]
    rw [div_eq_mul_inv _ (L : ℝ)]
    linarith [hq 3 1 (by norm_num), hq 4 2 (by norm_num), hq 5 3 (by norm_num), hq 6 4 (by norm_num), hq 7 5 (by norm_num), hq 8 6 (by norm_num), hqA 7 (by norm_num), hz 3 1, hz 4 2, hz 5 3, hz 6 4, hz 7 5, hz 8 6,
      hzA 8, hz 2 1, hz 3 2, hz 4 3, hz 5 4, hz 6 5, hz 7 6, hz 8 7]

end Verif.Fourier
