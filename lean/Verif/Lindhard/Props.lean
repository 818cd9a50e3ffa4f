import Verif.Lindhard.Lemmas
import Verif.Bubble.Props
import Verif.Fourier.Props
import Mathlib.Analysis.SpecialFunctions.ImproperIntegrals
import Mathlib.Analysis.Calculus.Deriv.Slope
import Mathlib.Tactic.Module

/-!
# C20, C21, C67: distribution functions, Lindhard bubble, real time bubble
-/

noncomputable section

namespace Verif.Lindhard

open Complex Verif.Parallel Verif.Fourier Verif.Bubble Matrix MeasureTheory

set_option linter.unusedSectionVars false

/-! ## C20 -/

/-- C20: both branches are the Fermi function. -/
theorem C20_fermi (e : ℝ) : fermi e = 1 / (Real.exp e + 1) := by
  have h := Real.exp_pos e
  unfold fermi
  split_ifs with h0
  · rfl
  · simp only [Real.exp_neg]
    field_simp

/-- C20: bounds. -/
theorem C20_fermi_bounds (e : ℝ) : 0 < fermi e ∧ fermi e < 1 := by
  have h := Real.exp_pos e
  rw [C20_fermi]
  constructor
  · positivity
  · rw [div_lt_one (by positivity)]; linarith

/-- C20: monotonicity. -/
theorem C20_fermi_strictAnti : StrictAnti fermi := by
  intro x y hxy
  rw [C20_fermi, C20_fermi]
  have h := Real.exp_pos x
  have h2 := Real.exp_lt_exp.2 hxy
  exact one_div_lt_one_div_of_lt (by positivity) (by linarith)

/-- C20: particle-hole symmetry. -/
theorem C20_fermi_neg (e : ℝ) : fermi e + fermi (-e) = 1 := by
  rw [C20_fermi, C20_fermi, Real.exp_neg]
  have h := Real.exp_pos e
  field_simp
  ring

/-- C20: the Bose function. -/
theorem C20_bose (e : ℝ) (he : e ≠ 0) : bose e + bose (-e) = -1 := by
  have h1 : Real.exp e ≠ 1 := by
    intro h; exact he (by simpa using Real.exp_eq_one_iff e |>.1 h)
  have h2 : Real.exp e - 1 ≠ 0 := sub_ne_zero.2 h1
  have h3 : 1 - Real.exp e ≠ 0 := sub_ne_zero.2 (Ne.symm h1)
  have hp := Real.exp_ne_zero e
  have e1 : bose (-e) = Real.exp e / (1 - Real.exp e) := by
    rw [bose, Real.exp_neg, div_eq_div_iff]
    · field_simp
    · intro h
      apply h3
      have : (Real.exp e)⁻¹ = 1 := by linarith
      rw [inv_eq_one] at this
      rw [this]; ring
    · exact h3
  rw [e1, bose, ← neg_sub (Real.exp e) 1, div_neg, ← sub_eq_add_neg, ← sub_div, div_eq_iff h2]
  ring

/-- C20: relation between the two functions. -/
theorem C20_bose_fermi (e : ℝ) (he : e ≠ 0) : fermi e = bose e * (1 - 2 * fermi e) := by
  have h1 : Real.exp e ≠ 1 := by
    intro h; exact he (by simpa using Real.exp_eq_one_iff e |>.1 h)
  have h2 : Real.exp e - 1 ≠ 0 := sub_ne_zero.2 h1
  have h := Real.exp_pos e
  rw [C20_fermi, bose]
  field_simp
  ring

/-! ## C21 -/

variable {d : ℕ} {n : Fin d → ℕ} [∀ i, NeZero (n i)] {o : Type*} [Fintype o] [DecidableEq o]

/-- the eigensystem at one momentum -/
abbrev sys (eig : Eig o) (mu : ℝ) (e : Lat n → Matrix o o ℂ) (k : Lat n) : (o → ℝ) × Matrix o o ℂ :=
  eig (e k - (mu : ℂ) • 1)

theorem sys_diag {eig : Eig o} (hs : EigSpec eig) (mu : ℝ) {e : Lat n → Matrix o o ℂ}
    (he : ∀ k, (e k).IsHermitian) (k : Lat n) : Diag (e k - (mu : ℂ) • 1) (sys eig mu e k) := by
  apply hs
  have h1 : ((mu : ℂ) • (1 : Matrix o o ℂ)).IsHermitian := by
    rw [Matrix.IsHermitian, conjTranspose_smul, conjTranspose_one]
    simp
  exact (he k).sub h1

/-- explicit value of the routine on a complete mesh, any number of ranks -/
theorem lindhard_eq (ranks : ℕ) (hr : 0 < ranks) (eig : Eig o) (tol beta mu : ℝ) (kmesh : List (Lat n))
    (hnd : kmesh.Nodup) (hall : ∀ k, k ∈ kmesh) (e : Lat n → Matrix o o ℂ) (z : ℂ) (q : Lat n) :
    lindhard ranks eig tol beta mu kmesh e z q
      = (Fintype.card (Lat n) : ℂ)⁻¹ • ∑ k, dbl (sys eig mu e k) (sys eig mu e (k + q)) (totalFactor tol beta z) := by
  rw [lindhard, C02_distributedAccumulate ranks hr]
  have hu : kmesh.toFinset = Finset.univ := by ext k; simp [hall k]
  rw [← List.sum_toFinset _ hnd, hu]
  have hl : kmesh.length = Fintype.card (Lat n) := by
    rw [← List.toFinset_card_of_nodup hnd, hu, Finset.card_univ]
  rw [hl]
  rfl

/-- C21: independent of the eigenvectors chosen by the diagonalisation routine. -/
theorem C21_eigenbasis_independent (r1 r2 : ℕ) (h1 : 0 < r1) (h2 : 0 < r2) (eig eig' : Eig o)
    (hs : EigSpec eig) (hs' : EigSpec eig') (tol beta mu : ℝ) (kmesh : List (Lat n)) (hnd : kmesh.Nodup)
    (hall : ∀ k, k ∈ kmesh) (e : Lat n → Matrix o o ℂ) (he : ∀ k, (e k).IsHermitian) (z : ℂ) (q : Lat n) :
    lindhard r1 eig tol beta mu kmesh e z q = lindhard r2 eig' tol beta mu kmesh e z q := by
  rw [lindhard_eq r1 h1 _ _ _ _ _ hnd hall, lindhard_eq r2 h2 _ _ _ _ _ hnd hall]
  congr 1
  exact Finset.sum_congr rfl fun k _ => dbl_unique (sys_diag hs mu he k) (sys_diag hs' mu he k)
    (sys_diag hs mu he (k + q)) (sys_diag hs' mu he (k + q)) _

theorem totalFactor_swap (tol beta : ℝ) (z : ℂ) (x y : ℝ)
    (h : ‖z‖ < tol → |y - x| < tol → y = x) :
    totalFactor tol beta (-z) y x = totalFactor tol beta z x y := by
  simp only [totalFactor, norm_neg, abs_sub_comm x y]
  split_ifs with hc
  · rw [h hc.1 hc.2]
  · rw [show (-z + ((x - y : ℝ) : ℂ)) = -(z + ((y - x : ℝ) : ℂ)) by push_cast; ring,
      show ((fermi (y * beta) - fermi (x * beta) : ℝ) : ℂ)
        = -((fermi (x * beta) - fermi (y * beta) : ℝ) : ℂ) by push_cast; ring, neg_div_neg_eq]

/-- C21: symmetry. The last hypothesis says that energies closer than the tolerance are equal. -/
theorem C21_symmetry (ranks : ℕ) (hr : 0 < ranks) (eig : Eig o) (tol beta mu : ℝ)
    (kmesh : List (Lat n)) (hnd : kmesh.Nodup) (hall : ∀ k, k ∈ kmesh) (e : Lat n → Matrix o o ℂ) (z : ℂ)
    (q : Lat n) (a b c d : o)
    (hsep : ‖z‖ < tol → ∀ k k' i j, |(sys eig mu e k').1 j - (sys eig mu e k).1 i| < tol →
      (sys eig mu e k').1 j = (sys eig mu e k).1 i) :
    lindhard ranks eig tol beta mu kmesh e z q a b c d
      = lindhard ranks eig tol beta mu kmesh e (-z) (-q) c d a b := by
  rw [lindhard_eq ranks hr _ _ _ _ _ hnd hall, lindhard_eq ranks hr _ _ _ _ _ hnd hall]
  simp only [Pi.smul_apply, Finset.sum_apply]
  congr 1
  rw [← Equiv.sum_comp (Equiv.addRight q) (fun k => dbl (sys eig mu e k) (sys eig mu e (k + -q))
    (totalFactor tol beta (-z)) c d a b)]
  refine Finset.sum_congr rfl fun k _ => ?_
  rw [dbl_swap]
  simp only [Equiv.coe_addRight, add_neg_cancel_right]
  simp only [dbl]
  refine Finset.sum_congr rfl fun i _ => Finset.sum_congr rfl fun j _ => ?_
  rw [totalFactor_swap _ _ _ _ _ fun h1 h2 => ?_]
  exact (hsep h1 _ _ _ _ h2)

theorem fermi_hasDerivAt (x : ℝ) : HasDerivAt fermi (-(1 / (4 * Real.cosh (x / 2) ^ 2))) x := by
  have hf : fermi = fun e => (Real.exp e + 1)⁻¹ := by
    funext e; rw [C20_fermi, one_div]
  rw [hf]
  have hp := Real.exp_pos x
  have h := ((Real.hasDerivAt_exp x).add_const (1 : ℝ)).inv (by positivity)
  refine HasDerivAt.congr_deriv h ?_
  have hc : 4 * Real.cosh (x / 2) ^ 2 = (Real.exp x + 1) ^ 2 / Real.exp x := by
    rw [Real.cosh_eq]
    have e1 : Real.exp (x / 2) * Real.exp (x / 2) = Real.exp x := by
      rw [← Real.exp_add]; congr 1; ring
    have h2 := Real.exp_pos (x / 2)
    rw [Real.exp_neg, ← e1]
    field_simp
    norm_num
  rw [hc]
  field_simp

/-- C21: the special branch is the limit of the regular branch at zero frequency for degenerate energies. -/
theorem C21_degenerate_limit (tol beta : ℝ) (ht : 0 < tol) (x : ℝ) :
    Filter.Tendsto (fun y : ℝ => (((fermi (x * beta) - fermi (y * beta) : ℝ) : ℂ) / (0 + ((y - x : ℝ) : ℂ))))
      (nhdsWithin x {x}ᶜ) (nhds (totalFactor tol beta 0 x x)) := by
  have h1 : HasDerivAt (fun y : ℝ => fermi (y * beta))
      (-(1 / (4 * Real.cosh (x * beta / 2) ^ 2)) * beta) x := by
    have h0 := HasDerivAt.comp x (h₂ := fermi) (h := fun y : ℝ => y * beta) (fermi_hasDerivAt (x * beta))
      ((hasDerivAt_id x).mul_const beta)
    exact HasDerivAt.congr_deriv h0 (by simp)
  have h2 := (hasDerivAt_iff_tendsto_slope.1 h1).neg
  have h3 : totalFactor tol beta 0 x x
      = ((-(-(1 / (4 * Real.cosh (x * beta / 2) ^ 2)) * beta) : ℝ) : ℂ) := by
    simp only [totalFactor, norm_zero, sub_self, abs_zero, ht, and_self, if_true]
    congr 1
    rw [show (0.5 * beta * x : ℝ) = x * beta / 2 by norm_num; ring]
    ring
  rw [h3]
  have h4 := (Complex.continuous_ofReal.tendsto _).comp h2
  refine h4.congr fun y => ?_
  simp only [Function.comp, slope_def_field]
  push_cast
  ring

/-- integral of a double function -/
theorem integral_dbl (μ : Measure ℝ) (p q : (o → ℝ) × Matrix o o ℂ) (h : ℝ → ℝ → ℝ → ℂ)
    (hi : ∀ x y, Integrable (fun t => h t x y) μ) (a b c d : o) :
    ∫ t, dbl p q (h t) a b c d ∂μ = dbl p q (fun x y => ∫ t, h t x y ∂μ) a b c d := by
  simp only [dbl]
  rw [integral_finsetSum]
  · refine Finset.sum_congr rfl fun i _ => ?_
    rw [integral_finsetSum]
    · refine Finset.sum_congr rfl fun j _ => ?_
      rw [integral_const_mul]
    · exact fun j _ => (hi _ _).const_mul _
  · exact fun i _ => integrable_finsetSum _ fun j _ => (hi _ _).const_mul _

/-- time reversal symmetric dispersion -/
def TimeReversal (e : Lat n → Matrix o o ℂ) : Prop := ∀ k, e (-k) = (e k)ᵀ

theorem matFun_neg {eig : Eig o} (hs : EigSpec eig) (mu : ℝ) {e : Lat n → Matrix o o ℂ}
    (he : ∀ k, (e k).IsHermitian) (htr : TimeReversal e) (k : Lat n) (f : ℝ → ℂ) (a b : o) :
    matFun (sys eig mu e (-k)) f a b = matFun (sys eig mu e k) f b a := by
  have h1 := sys_diag hs mu he (-k)
  have h2 := (sys_diag hs mu he k).transpose
  have h3 : (e k - (mu : ℂ) • 1)ᵀ = e (-k) - (mu : ℂ) • 1 := by
    rw [transpose_sub, transpose_smul, transpose_one, htr k]
  rw [h3] at h2
  rw [matFun_unique h1 h2, matFun_transpose, Matrix.transpose_apply]

/-- free imaginary time propagator `G(τ) = -(1 - f) exp(-ε τ)` for `0 ≤ τ ≤ β` -/
def freeTau (beta tau : ℝ) (x : ℝ) : ℂ := ((-(1 - fermi (x * beta)) * Real.exp (-x * tau) : ℝ) : ℂ)

theorem freeTau_integral (beta : ℝ) (hb : 0 < beta) (m : ℤ) (tol : ℝ) (ht : 0 < tol) (x y : ℝ)
    (hsep : ‖matsubara .boson beta m‖ < tol → |y - x| < tol → m = 0 ∧ y = x) :
    (∫ tau in (0 : ℝ)..beta, exp (matsubara .boson beta m * tau) * (freeTau beta tau x * freeTau beta (beta - tau) y))
      = totalFactor tol beta (matsubara .boson beta m) x y := by
  set z := matsubara .boson beta m with hz
  have hfx : (1 - fermi (x * beta)) * Real.exp (-x * beta) = fermi (x * beta) := by
    rw [C20_fermi]
    have := Real.exp_pos (x * beta)
    rw [show -x * beta = -(x * beta) by ring, Real.exp_neg]
    field_simp
    ring
  have hfy : (1 - fermi (y * beta)) * Real.exp (-y * beta) = fermi (y * beta) := by
    rw [C20_fermi]
    have := Real.exp_pos (y * beta)
    rw [show -y * beta = -(y * beta) by ring, Real.exp_neg]
    field_simp
    ring
  have h1 : ∀ tau : ℝ, exp (z * tau) * (freeTau beta tau x * freeTau beta (beta - tau) y)
      = (((1 - fermi (x * beta)) * fermi (y * beta) : ℝ) : ℂ) * exp ((z + ((y - x : ℝ) : ℂ)) * tau) := by
    intro tau
    rw [← hfy]
    have e1 : exp ((z + ((y - x : ℝ) : ℂ)) * tau)
        = exp (z * tau) * ((Real.exp (-x * tau) * Real.exp (y * tau) : ℝ) : ℂ) := by
      push_cast
      rw [← exp_add, ← exp_add]; congr 1; ring
    have e2 : Real.exp (-y * (beta - tau)) = Real.exp (-y * beta) * Real.exp (y * tau) := by
      rw [← Real.exp_add]; congr 1; ring
    rw [e1, freeTau, freeTau, e2]
    push_cast
    ring
  simp only [h1]
  rw [intervalIntegral.integral_const_mul]
  have hbc : (beta : ℂ) ≠ 0 := by exact_mod_cast hb.ne'
  by_cases hc : ‖z‖ < tol ∧ |y - x| < tol
  · obtain ⟨hm, hyx⟩ := hsep hc.1 hc.2
    have z0 : z = 0 := by rw [hz, hm]; simp [matsubara]
    rw [z0, hyx]
    simp only [totalFactor, norm_zero, sub_self, abs_zero, ht, and_self, if_true]
    simp only [ofReal_zero, add_zero, zero_mul, exp_zero, intervalIntegral.integral_const, sub_zero]
    have hc2 : 4 * Real.cosh (0.5 * beta * x) * Real.cosh (0.5 * beta * x)
        = (Real.exp (x * beta) + 1) ^ 2 / Real.exp (x * beta) := by
      have e1 : Real.exp (0.5 * beta * x) * Real.exp (0.5 * beta * x) = Real.exp (x * beta) := by
        rw [← Real.exp_add]; congr 1; norm_num; ring
      have h2 := Real.exp_pos (0.5 * beta * x)
      rw [Real.cosh_eq, Real.exp_neg, ← e1]
      field_simp
      norm_num
    rw [hc2, C20_fermi]
    have := Real.exp_pos (x * beta)
    have h5 : (1 - 1 / (Real.exp (x * beta) + 1)) * (1 / (Real.exp (x * beta) + 1)) * beta
        = beta / ((Real.exp (x * beta) + 1) ^ 2 / Real.exp (x * beta)) := by
      field_simp
      ring
    rw [← h5]
    simp
  · have hne : z + ((y - x : ℝ) : ℂ) ≠ 0 := by
      intro h0
      apply hc
      have hre := congrArg Complex.re h0
      have him := congrArg Complex.im h0
      have zI : z = ((2 * m * Real.pi / beta : ℝ) : ℂ) * I := by
        rw [hz, matsubara]; push_cast; ring
      have zre : z.re = 0 := by rw [zI]; simp
      have zim : z.im = 0 := by
        have := him
        rw [add_im, ofReal_im, add_zero] at this
        simpa using this
      have z0 : z = 0 := Complex.ext zre zim
      have yx : y - x = 0 := by
        rw [add_re, ofReal_re, zre, zero_add] at hre
        simpa using hre
      rw [z0, yx]
      simp [ht]
    rw [integral_exp_mul_complex hne]
    simp only [totalFactor, if_neg hc]
    have e3 : exp ((z + ((y - x : ℝ) : ℂ)) * beta) = ((Real.exp (-x * beta) * Real.exp (y * beta) : ℝ) : ℂ) := by
      rw [add_mul, exp_add, hz, exp_matsubara .boson beta hb m, one_mul]
      push_cast
      rw [← exp_add]; congr 1; ring
    rw [e3]
    simp only [ofReal_zero, mul_zero, exp_zero]
    rw [← mul_div_assoc]
    congr 1
    have hfy2 : fermi (y * beta) * Real.exp (y * beta) = 1 - fermi (y * beta) := by
      rw [C20_fermi]
      have := Real.exp_pos (y * beta)
      field_simp
      ring
    have : (1 - fermi (x * beta)) * fermi (y * beta) * (Real.exp (-x * beta) * Real.exp (y * beta) - 1)
        = fermi (x * beta) - fermi (y * beta) := by
      calc _ = ((1 - fermi (x * beta)) * Real.exp (-x * beta)) * (fermi (y * beta) * Real.exp (y * beta))
            - (1 - fermi (x * beta)) * fermi (y * beta) := by ring
        _ = _ := by rw [hfx, hfy2]; ring
    exact_mod_cast this

/-- Fourier transform of the documented imaginary time bubble at one momentum -/
def bubbleTauK (eig : Eig o) (beta mu : ℝ) (e : Lat n → Matrix o o ℂ) (tau : ℝ) (q : Lat n) : T4 o :=
  fun a b c d => rToK (fun r => kToR (fun k => matFun (sys eig mu e k) (freeTau beta tau) d a) r
    * kToR (fun k => matFun (sys eig mu e k) (freeTau beta (beta - tau)) b c) (-r)) q

theorem bubbleTauK_eq {eig : Eig o} (hs : EigSpec eig) (beta mu : ℝ) {e : Lat n → Matrix o o ℂ}
    (he : ∀ k, (e k).IsHermitian) (htr : TimeReversal e) (tau : ℝ) (q : Lat n) (a b c d : o) :
    bubbleTauK eig beta mu e tau q a b c d = (Fintype.card (Lat n) : ℂ)⁻¹ *
      ∑ k, dbl (sys eig mu e k) (sys eig mu e (k + q))
        (fun x y => freeTau beta tau x * freeTau beta (beta - tau) y) a b c d := by
  rw [bubbleTauK, rToK_product, div_eq_inv_mul]
  congr 1
  rw [← Equiv.sum_comp (Equiv.neg (Lat n))]
  refine Finset.sum_congr rfl fun k _ => ?_
  rw [dbl_sep]
  simp only [Equiv.neg_apply]
  rw [matFun_neg hs mu he htr, show -k - q = -(k + q) by abel, matFun_neg hs mu he htr]

/-- C21: for time reversal symmetric dispersions the Lindhard function is the Fourier transform (lattice and
imaginary time) of the product `G_{da}(τ, r) G_{bc}(β - τ, -r)` that `chi0_tr_from_grt_PH` forms, for
non-interacting Green's functions, at every bosonic Matsubara frequency including zero. -/
theorem C21_equals_imaginary_time_bubble_partial (ranks : ℕ) (hr : 0 < ranks) (eig : Eig o) (hs : EigSpec eig)
    (tol beta mu : ℝ) (hb : 0 < beta) (ht : 0 < tol) (kmesh : List (Lat n)) (hnd : kmesh.Nodup)
    (hall : ∀ k, k ∈ kmesh) (e : Lat n → Matrix o o ℂ) (he : ∀ k, (e k).IsHermitian)
    (htr : TimeReversal e) (m : ℤ) (htolm : ‖matsubara .boson beta m‖ < tol → m = 0) (q : Lat n) (a b c d : o)
    (hsep : ∀ k k' i j, |(sys eig mu e k').1 j - (sys eig mu e k).1 i| < tol →
      (sys eig mu e k').1 j = (sys eig mu e k).1 i) :
    lindhard ranks eig tol beta mu kmesh e (matsubara .boson beta m) q a b c d
      = ∫ tau in (0 : ℝ)..beta, exp (matsubara .boson beta m * tau) * bubbleTauK eig beta mu e tau q a b c d := by
  rw [lindhard_eq ranks hr _ _ _ _ _ hnd hall]
  simp only [bubbleTauK_eq hs beta mu he htr, Pi.smul_apply, Finset.sum_apply, smul_eq_mul]
  have e1 : ∀ tau : ℝ, exp (matsubara .boson beta m * tau) * ((Fintype.card (Lat n) : ℂ)⁻¹ *
      ∑ k, dbl (sys eig mu e k) (sys eig mu e (k + q))
        (fun x y => freeTau beta tau x * freeTau beta (beta - tau) y) a b c d)
      = (Fintype.card (Lat n) : ℂ)⁻¹ * ∑ k, dbl (sys eig mu e k) (sys eig mu e (k + q))
        (fun x y => exp (matsubara .boson beta m * tau) * (freeTau beta tau x * freeTau beta (beta - tau) y))
          a b c d := by
    intro tau
    rw [mul_left_comm]
    congr 1
    rw [Finset.mul_sum]
    refine Finset.sum_congr rfl fun k _ => ?_
    simp only [dbl, Finset.mul_sum]
    refine Finset.sum_congr rfl fun i _ => Finset.sum_congr rfl fun j _ => ?_
    ring
  simp only [e1]
  rw [intervalIntegral.integral_const_mul]
  congr 1
  have hint : ∀ x y, Integrable (fun tau : ℝ => exp (matsubara .boson beta m * tau)
      * (freeTau beta tau x * freeTau beta (beta - tau) y)) (volume.restrict (Set.Ioc 0 beta)) := by
    intro x y
    have : Continuous (fun tau : ℝ => exp (matsubara .boson beta m * tau)
      * (freeTau beta tau x * freeTau beta (beta - tau) y)) := by
      unfold freeTau
      fun_prop
    exact (this.intervalIntegrable 0 beta).1
  rw [intervalIntegral.integral_of_le hb.le, integral_finsetSum]
  · refine Finset.sum_congr rfl fun k _ => ?_
    rw [integral_dbl _ _ _ _ hint]
    simp only [dbl]
    refine Finset.sum_congr rfl fun i _ => Finset.sum_congr rfl fun j _ => ?_
    congr 1
    rw [← intervalIntegral.integral_of_le hb.le, freeTau_integral beta hb m tol ht]
    exact fun h1 h2 => ⟨htolm h1, hsep _ _ _ _ h2⟩
  · intro k _
    simp only [dbl]
    exact integrable_finsetSum _ fun i _ => integrable_finsetSum _ fun j _ => (hint _ _).const_mul _

/-! ### Without time reversal symmetry

One band on three momenta with energies `0, 1, -1` (`ε(k) ≠ ε(-k)`), first bosonic frequency at `β = 2π`. -/

/-- the dispersion of the counterexample -/
def chiralBand : Lat (fun _ : Fin 1 => 3) → Matrix (Fin 1) (Fin 1) ℂ := fun k _ _ =>
  if k 0 = 0 then 0 else if k 0 = 1 then 1 else -1

theorem chiralBand_hermitian (k) : (chiralBand k).IsHermitian := by
  ext a b
  simp only [conjTranspose_apply, chiralBand]
  split_ifs <;> simp

theorem one_band {eig : Eig (Fin 1)} (hs : EigSpec eig) {m : Matrix (Fin 1) (Fin 1) ℂ} (hm : m.IsHermitian)
    (x : ℝ) (hx : m 0 0 = x) : (eig m).1 0 = x ∧ (eig m).2 0 0 * (eig m).2ᴴ 0 0 = 1 := by
  obtain ⟨h1, h2, h3⟩ := hs m hm
  have e2 := congrFun (congrFun h2 0) 0
  have e3 := congrFun (congrFun h3 0) 0
  rw [Matrix.mul_apply] at e2 e3
  simp only [Matrix.mul_diagonal, Finset.univ_unique, Fin.default_eq_zero, Fin.isValue, Finset.sum_singleton,
    Matrix.one_apply_eq] at e2 e3
  refine ⟨?_, e2⟩
  rw [hx, mul_right_comm, e2, one_mul] at e3
  exact_mod_cast e3.symm

theorem one_band_matFun {eig : Eig (Fin 1)} (hs : EigSpec eig) {m : Matrix (Fin 1) (Fin 1) ℂ}
    (hm : m.IsHermitian) (x : ℝ) (hx : m 0 0 = x) (f : ℝ → ℂ) : matFun (eig m) f 0 0 = f x := by
  obtain ⟨h1, h2⟩ := one_band hs hm x hx
  rw [matFun_apply]
  simp only [Finset.univ_unique, Fin.default_eq_zero, Fin.isValue, Finset.sum_singleton]
  rw [mul_right_comm, h2, one_mul, h1]

theorem one_band_dbl {eig : Eig (Fin 1)} (hs : EigSpec eig) {m m' : Matrix (Fin 1) (Fin 1) ℂ}
    (hm : m.IsHermitian) (hm' : m'.IsHermitian) (x y : ℝ) (hx : m 0 0 = x) (hy : m' 0 0 = y)
    (f : ℝ → ℝ → ℂ) : dbl (eig m) (eig m') f 0 0 0 0 = f x y := by
  rw [dbl_eq]
  simp only [Finset.univ_unique, Fin.default_eq_zero, Fin.isValue, Finset.sum_singleton]
  obtain ⟨h1, h2⟩ := one_band hs hm x hx
  rw [one_band_matFun hs hm' y hy, mul_right_comm, h2, one_mul, h1]

/-- energies of `chiralBand` -/
def chiralE (k : Lat (fun _ : Fin 1 => 3)) : ℝ := if k 0 = 0 then 0 else if k 0 = 1 then 1 else -1

theorem sum_lat3 {M : Type*} [AddCommMonoid M] (f : Lat (fun _ : Fin 1 => 3) → M) :
    ∑ k, f k = f 0 + f 1 + f 2 := by
  rw [← Equiv.sum_comp (Equiv.funUnique (Fin 1) (ZMod 3)).symm]
  exact Fin.sum_univ_three _

theorem totalFactor_I (tol : ℝ) (ht : tol < 1) (beta x y : ℝ) :
    (totalFactor tol beta I x y).im = -(fermi (x * beta) - fermi (y * beta)) / (1 + (y - x) ^ 2) := by
  have : ¬ (‖I‖ < tol ∧ |y - x| < tol) := by
    rw [Complex.norm_I]; intro h; linarith [h.1]
  simp only [totalFactor, if_neg this]
  rw [Complex.div_im]
  simp only [ofReal_im, ofReal_re, add_re, I_re, zero_add, zero_mul, zero_div, add_im, I_im, add_zero, mul_one,
    zero_sub, Complex.normSq_apply]
  rw [neg_div]
  congr 2
  ring

/-- C21 fails for a band with `ε(k) ≠ ε(-k)`: the Lindhard routine and the imaginary time bubble differ, for
every tolerance below one, every diagonalisation routine and every number of ranks. -/
theorem C21_equals_imaginary_time_bubble_violated (ranks : ℕ) (hr : 0 < ranks) (eig : Eig (Fin 1))
    (hs : EigSpec eig) (tol : ℝ) (ht0 : 0 < tol) (ht : tol < 1) (kmesh : List (Lat (fun _ : Fin 1 => 3)))
    (hnd : kmesh.Nodup) (hall : ∀ k, k ∈ kmesh) :
    lindhard ranks eig tol (2 * Real.pi) 0 kmesh chiralBand (matsubara .boson (2 * Real.pi) 1) 1 0 0 0 0
      ≠ ∫ tau in (0 : ℝ)..(2 * Real.pi), exp (matsubara .boson (2 * Real.pi) 1 * tau)
          * bubbleTauK eig (2 * Real.pi) 0 chiralBand tau 1 0 0 0 0 := by
  have hpi := Real.pi_pos
  have hb : 0 < 2 * Real.pi := by positivity
  have hz : matsubara .boson (2 * Real.pi) 1 = I := by
    have : (Real.pi : ℂ) ≠ 0 := by exact_mod_cast Real.pi_ne_zero
    simp only [matsubara]
    push_cast
    field_simp
  have hH : ∀ k, (chiralBand k - ((0 : ℝ) : ℂ) • 1).IsHermitian := by
    intro k; simpa using chiralBand_hermitian k
  have hE : ∀ k, (chiralBand k - ((0 : ℝ) : ℂ) • (1 : Matrix (Fin 1) (Fin 1) ℂ)) 0 0 = chiralE k := by
    intro k
    simp only [ofReal_zero, zero_smul, sub_zero, chiralBand, chiralE]
    split_ifs <;> simp
  have hnorm : ¬ ‖I‖ < tol := by rw [Complex.norm_I]; linarith
  have e1 : ∀ tau : ℝ, bubbleTauK eig (2 * Real.pi) 0 chiralBand tau 1 0 0 0 0
      = (Fintype.card (Lat (fun _ : Fin 1 => 3)) : ℂ)⁻¹ * ∑ k, freeTau (2 * Real.pi) tau (chiralE k)
        * freeTau (2 * Real.pi) (2 * Real.pi - tau) (chiralE (k - 1)) := by
    intro tau
    rw [bubbleTauK, rToK_product, div_eq_inv_mul]
    congr 1
    refine Finset.sum_congr rfl fun k _ => ?_
    rw [one_band_matFun hs (hH _) _ (hE _), one_band_matFun hs (hH _) _ (hE _)]
  rw [lindhard_eq ranks hr _ _ _ _ _ hnd hall, hz]
  simp only [Pi.smul_apply, Finset.sum_apply, smul_eq_mul, e1]
  have e2 : ∀ tau : ℝ, exp (I * tau) * ((Fintype.card (Lat (fun _ : Fin 1 => 3)) : ℂ)⁻¹
      * ∑ k, freeTau (2 * Real.pi) tau (chiralE k)
        * freeTau (2 * Real.pi) (2 * Real.pi - tau) (chiralE (k - 1)))
      = (Fintype.card (Lat (fun _ : Fin 1 => 3)) : ℂ)⁻¹ * ∑ k, exp (I * tau) * (freeTau (2 * Real.pi) tau (chiralE k)
        * freeTau (2 * Real.pi) (2 * Real.pi - tau) (chiralE (k - 1))) := by
    intro tau
    rw [mul_left_comm, Finset.mul_sum]
  simp only [e2]
  rw [intervalIntegral.integral_const_mul, intervalIntegral.integral_finsetSum]
  · have e3 : ∀ k, (∫ tau in (0 : ℝ)..(2 * Real.pi), exp (I * tau) * (freeTau (2 * Real.pi) tau (chiralE k)
        * freeTau (2 * Real.pi) (2 * Real.pi - tau) (chiralE (k - 1))))
        = totalFactor tol (2 * Real.pi) I (chiralE k) (chiralE (k - 1)) := by
      intro k
      have := freeTau_integral (2 * Real.pi) hb 1 tol ht0 (chiralE k) (chiralE (k - 1))
        (by rw [hz]; intro h; exact absurd h hnorm)
      rw [hz] at this
      exact this
    simp only [e3]
    intro h
    have h2 := mul_left_cancel₀ (inv_ne_zero card_ne_zero') h
    have e4 : ∀ k, dbl (sys eig 0 chiralBand k) (sys eig 0 chiralBand (k + 1)) (totalFactor tol (2 * Real.pi) I)
        0 0 0 0 = totalFactor tol (2 * Real.pi) I (chiralE k) (chiralE (k + 1)) := by
      intro k
      exact one_band_dbl hs (hH _) (hH _) _ _ (hE _) (hE _) _
    simp only [e4, sum_lat3] at h2
    have h3 := congrArg Complex.im h2
    simp only [add_im, totalFactor_I tol ht] at h3
    have E0 : chiralE 0 = 0 := by simp [chiralE]
    have E1 : chiralE 1 = 1 := by simp [chiralE]
    have E2 : chiralE 2 = -1 := by
      simp only [chiralE]
      rw [if_neg (by decide), if_neg (by decide)]
    have a1 : (0 : Lat (fun _ : Fin 1 => 3)) + 1 = 1 := by decide
    have a2 : (1 : Lat (fun _ : Fin 1 => 3)) + 1 = 2 := by decide
    have a3 : (2 : Lat (fun _ : Fin 1 => 3)) + 1 = 0 := by decide
    have a4 : (0 : Lat (fun _ : Fin 1 => 3)) - 1 = 2 := by decide
    have a5 : (1 : Lat (fun _ : Fin 1 => 3)) - 1 = 0 := by decide
    have a6 : (2 : Lat (fun _ : Fin 1 => 3)) - 1 = 1 := by decide
    rw [a1, a2, a3, a4, a5, a6, E0, E1, E2] at h3
    have f1 := C20_fermi_neg (1 * (2 * Real.pi))
    have f0 := C20_fermi_neg (0 * (2 * Real.pi))
    have f2 : fermi (1 * (2 * Real.pi)) < fermi (0 * (2 * Real.pi)) := by
      apply C20_fermi_strictAnti
      linarith
    rw [show -(1 * (2 * Real.pi)) = -1 * (2 * Real.pi) by ring] at f1
    rw [show -(0 * (2 * Real.pi)) = 0 * (2 * Real.pi) by ring] at f0
    norm_num at h3 f0 f1 f2
    linarith
  · intro k _
    apply Continuous.intervalIntegrable
    unfold freeTau
    fun_prop

/-! ## C67 -/

theorem g0T_eq (eig : Eig o) (beta : ℝ) (weight : ℝ → ℂ) (m : Matrix o o ℂ) (T : ℝ) (a b : o) :
    g0T eig beta weight m T a b
      = matFun (eig m) (fun x => weight (fermi (beta * x)) * exp (-I * x * T)) a b := by
  rw [matFun_apply]; rfl

/-- lesser function -/
abbrev les (eig : Eig o) (beta : ℝ) (e : Lat n → Matrix o o ℂ) (k : Lat n) (T : ℝ) : o → o → ℂ :=
  g0T eig beta (fun occ => I * occ) (e k) T

/-- greater function -/
abbrev gtr (eig : Eig o) (beta : ℝ) (e : Lat n → Matrix o o ℂ) (k : Lat n) (T : ℝ) : o → o → ℂ :=
  g0T eig beta (fun occ => -I * (1 - occ)) (e k) T

/-- C67: values on the whole mesh, any number of ranks. -/
theorem C67_ranks (ranks : ℕ) (hr : 0 < ranks) (eig : Eig o) (beta : ℝ) (kmesh : List (Lat n))
    (hnd : kmesh.Nodup) (e : Lat n → Matrix o o ℂ) (k : Lat n) (hk : k ∈ kmesh) :
    g0TkLes ranks eig beta kmesh e k = les eig beta e k ∧ g0TkGtr ranks eig beta kmesh e k = gtr eig beta e k := by
  constructor
  · rw [g0TkLes, C02_distributedAssign ranks hr _ hnd, if_pos hk]
  · rw [g0TkGtr, C02_distributedAssign ranks hr _ hnd, if_pos hk]

/-- C67: equal time anticommutator. -/
theorem C67_jump (eig : Eig o) (hs : EigSpec eig) (beta : ℝ) (e : Lat n → Matrix o o ℂ)
    (he : ∀ k, (e k).IsHermitian) (k : Lat n) (a b : o) :
    I * (gtr eig beta e k 0 a b - les eig beta e k 0 a b) = if a = b then 1 else 0 := by
  have h := congrFun (congrFun (matFun_one (m := e k) (hs (e k) (he k))) a) b
  rw [Matrix.one_apply] at h
  rw [← h, gtr, les, g0T_eq, g0T_eq, matFun_apply, matFun_apply, matFun_apply, ← Finset.sum_sub_distrib,
    Finset.mul_sum]
  refine Finset.sum_congr rfl fun c _ => ?_
  simp only [ofReal_zero, mul_zero, exp_zero, mul_one]
  linear_combination (-((eig (e k)).2 a c * (eig (e k)).2ᴴ c b)) * Complex.I_mul_I

/-- C67: `G(T)^† = -G(-T)` for both functions. -/
theorem C67_adjoint (eig : Eig o) (beta : ℝ) (e : Lat n → Matrix o o ℂ) (k : Lat n) (T : ℝ) (a b : o) :
    (starRingEnd ℂ) (les eig beta e k T b a) = -les eig beta e k (-T) a b ∧
    (starRingEnd ℂ) (gtr eig beta e k T b a) = -gtr eig beta e k (-T) a b := by
  have key : ∀ w : ℝ → ℂ, (∀ x, (starRingEnd ℂ) (w x) = -w x) →
      (starRingEnd ℂ) (g0T eig beta w (e k) T b a) = -g0T eig beta w (e k) (-T) a b := by
    intro w hw
    rw [g0T_eq, g0T_eq]
    have := congrFun (congrFun (matFun_conjTranspose (eig (e k))
      (fun x => w (fermi (beta * x)) * exp (-I * x * T))) a) b
    rw [Matrix.conjTranspose_apply] at this
    rw [starRingEnd_apply, this, matFun_apply, matFun_apply, ← Finset.sum_neg_distrib]
    refine Finset.sum_congr rfl fun c _ => ?_
    rw [map_mul, hw, ← exp_conj]
    simp
  constructor
  · apply key; intro x; simp
  · apply key; intro x; simp

/-- lattice transform of a real time function -/
def toR (g : Lat n → ℝ → o → o → ℂ) : ℝ → Lat n → o → o → ℂ := fun t r a b => kToR (fun k => g k t a b) r

/-- the expression in the documentation of `chi0_Tr_from_g_Tr_PH`,
`/repo/c++/triqs_tprf/lattice/chi_retime.hpp:30-40` -/
def docChi0Tr (l g : ℝ → Lat n → o → o → ℂ) (t : ℝ) (r : Lat n) : T4 o := fun a b c d =>
  I * l t r d a * g (-t) (-r) b c - I * g t r d a * l (-t) (-r) b c

theorem conj_kToR (f : Lat n → ℂ) (r : Lat n) :
    (starRingEnd ℂ) (kToR f r) = kToR (fun k => (starRingEnd ℂ) (f k)) (-r) := by
  have hk : ∀ x y : Lat n, (starRingEnd ℂ) (ker x y) = ker (-x) y := by
    intro x y
    rw [← exp_eq_ker, ← exp_neg_eq_ker, ← exp_conj]
    congr 1
    simp only [map_mul, map_sum, map_div₀, conj_ofReal, conj_I, Complex.conj_natCast, Complex.conj_ofNat]
    push_cast
    ring
  simp only [kToR, fftw_neg_one, smul_eq_mul, map_mul, map_sum, hk, ker_neg_right]
  simp

theorem sys_zero (eig : Eig o) (e : Lat n → Matrix o o ℂ) (k : Lat n) : eig (e k) = sys eig 0 e k := by
  simp [sys]

theorem g0T_neg {eig : Eig o} (hs : EigSpec eig) (beta : ℝ) {e : Lat n → Matrix o o ℂ}
    (he : ∀ k, (e k).IsHermitian) (htr : TimeReversal e) (w : ℝ → ℂ) (k : Lat n) (t : ℝ) (a b : o) :
    g0T eig beta w (e (-k)) t a b = g0T eig beta w (e k) t b a := by
  rw [g0T_eq, g0T_eq, sys_zero eig e (-k), sys_zero eig e k, matFun_neg hs 0 he htr]

theorem kToR_neg (f : Lat n → ℂ) (r : Lat n) : kToR f (-r) = kToR (fun k => f (-k)) r := by
  simp only [kToR, fftw_neg_one]
  congr 1
  rw [← Equiv.sum_comp (Equiv.neg (Lat n))]
  simp only [Equiv.neg_apply, neg_neg, ker_neg_right]

theorem doc_eq (eig : Eig o) (beta : ℝ) (e : Lat n → Matrix o o ℂ) (t : ℝ) (r : Lat n) (a b c d : o) :
    docChi0Tr (toR (les eig beta e)) (toR (gtr eig beta e)) t r a b c d
      = -(I * toR (les eig beta e) t r d a * (starRingEnd ℂ) (toR (gtr eig beta e) t r c b)
        - I * toR (gtr eig beta e) t r d a * (starRingEnd ℂ) (toR (les eig beta e) t r c b)) := by
  have h1 : toR (les eig beta e) (-t) (-r) b c = -(starRingEnd ℂ) (toR (les eig beta e) t r c b) := by
    rw [toR, toR, conj_kToR]
    simp only [(C67_adjoint eig beta e _ t b c).1]
    simp only [kToR, fftw_neg_one, smul_neg, Finset.sum_neg_distrib, neg_neg]
  have h2 : toR (gtr eig beta e) (-t) (-r) b c = -(starRingEnd ℂ) (toR (gtr eig beta e) t r c b) := by
    rw [toR, toR, conj_kToR]
    simp only [(C67_adjoint eig beta e _ t b c).2]
    simp only [kToR, fftw_neg_one, smul_neg, Finset.sum_neg_distrib, neg_neg]
  rw [docChi0Tr, h1, h2]
  ring

/-- C67: for time reversal symmetric dispersions the routine returns minus the documented expression. -/
theorem C67_documented_partial (eig : Eig o) (hs : EigSpec eig) (beta : ℝ) (e : Lat n → Matrix o o ℂ)
    (he : ∀ k, (e k).IsHermitian) (htr : TimeReversal e) (t : ℝ) (r : Lat n) :
    chi0Tr (toR (les eig beta e)) (toR (gtr eig beta e)) t r
      = -docChi0Tr (toR (les eig beta e)) (toR (gtr eig beta e)) t r := by
  funext a b c d
  simp only [Pi.neg_apply]
  rw [doc_eq, neg_neg, chi0Tr]
  have h1 : toR (les eig beta e) t (-r) b c = toR (les eig beta e) t r c b := by
    rw [toR, toR, kToR_neg]
    simp only [les, g0T_neg hs beta he htr]
  have h2 : toR (gtr eig beta e) t (-r) b c = toR (gtr eig beta e) t r c b := by
    rw [toR, toR, kToR_neg]
    simp only [gtr, g0T_neg hs beta he htr]
  rw [h1, h2]

/-- C67: equal times. The bubble is local and equals the expectation value of the commutator,
`δ_{r0} (δ_{da} G^<_{cb} - G^<_{da} δ_{bc})`. -/
theorem C67_equal_time (eig : Eig o) (hs : EigSpec eig) (beta : ℝ) (e : Lat n → Matrix o o ℂ)
    (he : ∀ k, (e k).IsHermitian) (r : Lat n) (a b c d : o) :
    chi0Tr (toR (les eig beta e)) (toR (gtr eig beta e)) 0 r a b c d
      = if r = 0 then (if d = a then toR (les eig beta e) 0 0 c b else 0)
          - (if b = c then toR (les eig beta e) 0 0 d a else 0) else 0 := by
  have hg : ∀ (r : Lat n) (x y : o), toR (gtr eig beta e) 0 r x y
      = toR (les eig beta e) 0 r x y - (if r = 0 then (if x = y then I else 0) else 0) := by
    intro r x y
    have h : ∀ k, gtr eig beta e k 0 x y = les eig beta e k 0 x y + (if x = y then -I else 0) := by
      intro k
      have := C67_jump eig hs beta e he k x y
      have h2 : I * (I * (gtr eig beta e k 0 x y - les eig beta e k 0 x y)) = I * (if x = y then 1 else 0) := by
        rw [this]
      rw [← mul_assoc, Complex.I_mul_I] at h2
      split_ifs at h2 ⊢ with hxy
      · linear_combination -h2
      · linear_combination -h2
    rw [toR, toR]
    simp only [h, kToR, fftw_neg_one, smul_add, Finset.sum_add_distrib, ← Finset.sum_smul]
    have hs2 : (∑ k : Lat n, ker (-k) r) = if r = 0 then (Fintype.card (Lat n) : ℂ) else 0 := by
      rw [← sum_ker, ← Equiv.sum_comp (Equiv.neg (Lat n))]
      simp
    rw [hs2]
    split_ifs with h1 h2
    · rw [smul_smul, inv_mul_cancel₀ card_ne_zero', one_smul]; ring
    · simp
    · simp
    · simp
  have hadj : ∀ (x y : o), (starRingEnd ℂ) (toR (les eig beta e) 0 0 x y) = -toR (les eig beta e) 0 0 y x := by
    intro x y
    rw [toR, toR, conj_kToR, neg_zero]
    have := fun k => (C67_adjoint eig beta e k 0 y x).1
    rw [neg_zero] at this
    simp only [this]
    simp only [kToR, fftw_neg_one, smul_neg, Finset.sum_neg_distrib]
  rw [chi0Tr, hg, hg]
  by_cases hr : r = 0
  · subst hr
    simp only [neg_zero, if_true, map_sub, hadj]
    split_ifs <;> simp <;> first
      | linear_combination (toR (les eig beta e) 0 0 d a - toR (les eig beta e) 0 0 c b) * Complex.I_mul_I
      | linear_combination (toR (les eig beta e) 0 0 d a) * Complex.I_mul_I
      | linear_combination (- toR (les eig beta e) 0 0 c b) * Complex.I_mul_I
  · have hr' : -r ≠ 0 := by simpa using hr
    simp only [hr, hr', if_false, sub_zero]
    ring

/-- C67: the retarded response. For time reversal symmetric dispersions the one-sided Fourier transform of the
real time bubble is `lindhard_chi00` on the real frequency mesh with broadening `δ`. -/
theorem C67_retarded_is_lindhard_partial (ranks : ℕ) (hr : 0 < ranks) (eig : Eig o) (hs : EigSpec eig)
    (tol beta : ℝ) (kmesh : List (Lat n)) (hnd : kmesh.Nodup) (hall : ∀ k, k ∈ kmesh)
    (e : Lat n → Matrix o o ℂ) (he : ∀ k, (e k).IsHermitian) (htr : TimeReversal e) (w delta : ℝ)
    (hd : 0 < delta) (htol : ¬ ‖(w + I * delta : ℂ)‖ < tol) (q : Lat n) (a b c d : o) :
    lindhard ranks eig tol beta 0 kmesh e (w + I * delta) q a b c d
      = ∫ t in Set.Ioi (0 : ℝ), exp (I * (w + I * delta) * t)
          * rToK (fun r => chi0Tr (toR (les eig beta e)) (toR (gtr eig beta e)) t r a b c d) q := by
  set z : ℂ := w + I * delta with hz
  have zim : z.im = delta := by rw [hz]; simp
  rw [lindhard_eq ranks hr _ _ _ _ _ hnd hall]
  have hconj : ∀ (f : Lat n → ℂ) (r : Lat n), (starRingEnd ℂ) (kToR f (-r))
      = kToR (fun k => (starRingEnd ℂ) (f (-k))) (-r) := by
    intro f r
    rw [kToR_neg f r, conj_kToR]
  have hk : ∀ t : ℝ, rToK (fun r => chi0Tr (toR (les eig beta e)) (toR (gtr eig beta e)) t r a b c d) q
      = (Fintype.card (Lat n) : ℂ)⁻¹ * ∑ k, dbl (sys eig 0 e k) (sys eig 0 e (k + q))
        (fun x y => -I * (fermi (x * beta) - fermi (y * beta)) * exp (I * (y - x) * t)) a b c d := by
    intro t
    have e1 : (fun r => chi0Tr (toR (les eig beta e)) (toR (gtr eig beta e)) t r a b c d)
        = fun r => I * (kToR (fun k => les eig beta e k t d a) r
            * kToR (fun k => (starRingEnd ℂ) (gtr eig beta e (-k) t b c)) (-r))
          - I * (kToR (fun k => gtr eig beta e k t d a) r
            * kToR (fun k => (starRingEnd ℂ) (les eig beta e (-k) t b c)) (-r)) := by
      funext r
      rw [chi0Tr, toR, toR, toR, toR, hconj, hconj]
      ring
    have e2 : ∀ f g : Lat n → ℂ, rToK (fun r => I * f r - I * g r) q = I * rToK f q - I * rToK g q := by
      intro f g
      simp only [rToK, fftw_one, smul_eq_mul, Finset.mul_sum, ← Finset.sum_sub_distrib]
      refine Finset.sum_congr rfl fun x _ => ?_
      ring
    rw [e1, e2, rToK_product, rToK_product, div_eq_inv_mul, div_eq_inv_mul, mul_left_comm I,
      mul_left_comm I, ← mul_sub, Finset.mul_sum, Finset.mul_sum, ← Finset.sum_sub_distrib]
    congr 1
    rw [← Equiv.sum_comp (Equiv.neg (Lat n))]
    refine Finset.sum_congr rfl fun k _ => ?_
    simp only [Equiv.neg_apply]
    rw [show -(-k - q) = k + q by abel]
    have adj : ∀ (k : Lat n) (f : ℝ → ℂ) (x y : o), (starRingEnd ℂ) (matFun (sys eig 0 e k) f x y)
        = matFun (sys eig 0 e k) (fun u => (starRingEnd ℂ) (f u)) y x := by
      intro k f x y
      have := congrFun (congrFun (matFun_conjTranspose (sys eig 0 e k) f) y) x
      rw [Matrix.conjTranspose_apply] at this
      rw [starRingEnd_apply, this]
    simp only [les, gtr, g0T_neg hs beta he htr]
    rw [g0T_eq, g0T_eq, g0T_eq, g0T_eq, sys_zero eig e k, sys_zero eig e (k + q), adj, adj]
    rw [← dbl_sep, ← dbl_sep]
    simp only [dbl, Finset.mul_sum, ← Finset.sum_sub_distrib]
    refine Finset.sum_congr rfl fun i _ => Finset.sum_congr rfl fun j _ => ?_
    simp only [map_mul, ← exp_conj, map_neg, map_sub, map_one, conj_I, conj_ofReal, mul_comm beta]
    set x := (sys eig 0 e k).1 i
    set y := (sys eig 0 e (k + q)).1 j
    have e3 : exp (I * (y - x) * t) = exp (-I * x * t) * exp (-(-I) * y * t) := by
      rw [← exp_add]; congr 1; ring
    rw [e3]
    ring_nf
    simp only [show (I : ℂ) ^ 3 = -I by rw [pow_succ, Complex.I_sq]; ring]
    ring
  simp only [Pi.smul_apply, Finset.sum_apply, smul_eq_mul, hk]
  have e1 : ∀ t : ℝ, exp (I * z * t) * ((Fintype.card (Lat n) : ℂ)⁻¹ *
      ∑ k, dbl (sys eig 0 e k) (sys eig 0 e (k + q))
        (fun x y => -I * (fermi (x * beta) - fermi (y * beta)) * exp (I * (y - x) * t)) a b c d)
      = (Fintype.card (Lat n) : ℂ)⁻¹ * ∑ k, dbl (sys eig 0 e k) (sys eig 0 e (k + q))
        (fun x y => -I * (fermi (x * beta) - fermi (y * beta)) * exp (I * (z + (y - x)) * t)) a b c d := by
    intro t
    rw [mul_left_comm]
    congr 1
    rw [Finset.mul_sum]
    refine Finset.sum_congr rfl fun k _ => ?_
    simp only [dbl, Finset.mul_sum]
    refine Finset.sum_congr rfl fun i _ => Finset.sum_congr rfl fun j _ => ?_
    rw [mul_add I z, add_mul, exp_add]
    ring
  simp only [e1]
  rw [integral_const_mul]
  congr 1
  have hre : ∀ x y : ℝ, (I * (z + (y - x))).re < 0 := by
    intro x y
    have : (z + (y - x : ℂ)).im = delta := by
      rw [add_im, zim]; simp
    simp only [mul_re, I_re, zero_mul, I_im, one_mul, zero_sub, this]
    linarith
  have hint : ∀ x y : ℝ, Integrable (fun t : ℝ => -I * (fermi (x * beta) - fermi (y * beta))
      * exp (I * (z + (y - x)) * t)) (volume.restrict (Set.Ioi 0)) := by
    intro x y
    exact (integrableOn_exp_mul_complex_Ioi (hre x y) 0).const_mul _
  rw [integral_finsetSum]
  · refine Finset.sum_congr rfl fun k _ => ?_
    rw [integral_dbl _ _ _ (fun t x y => -I * (fermi (x * beta) - fermi (y * beta))
      * exp (I * (z + (y - x)) * t)) hint]
    simp only [dbl]
    refine Finset.sum_congr rfl fun i _ => Finset.sum_congr rfl fun j _ => ?_
    congr 1
    rw [integral_const_mul, integral_exp_mul_complex_Ioi (hre _ _)]
    have hnt : ∀ u : ℝ, ¬ (‖z‖ < tol ∧ |u| < tol) := fun u h => htol h.1
    simp only [totalFactor, if_neg (hnt _), ofReal_zero, mul_zero, exp_zero]
    have hne : ∀ x y : ℝ, z + (y - x : ℂ) ≠ 0 := by
      intro x y h0
      have := hre x y
      rw [h0] at this
      simp at this
    have h3 := hne ((sys eig 0 e k).1 i) ((sys eig 0 e (k + q)).1 j)
    push_cast
    field_simp [Complex.I_ne_zero]
  · intro k _
    simp only [dbl]
    exact integrable_finsetSum _ fun i _ => integrable_finsetSum _ fun j _ => (hint _ _).const_mul _

/-- one band on two momenta with energies 1 and 0 -/
def twoLevel : Lat (fun _ : Fin 1 => 2) → Matrix (Fin 1) (Fin 1) ℂ := fun k _ _ => if k 0 = 0 then 1 else 0

theorem twoLevel_hermitian (k) : (twoLevel k).IsHermitian := by
  ext a b
  simp only [conjTranspose_apply, twoLevel]
  split_ifs <;> simp

theorem twoLevel_timeReversal : TimeReversal twoLevel := by
  intro k
  have : -k = k := by
    funext i
    exact ZMod.neg_eq_self_mod_two (k i)
  ext a b
  rw [this, Matrix.transpose_apply]
  rfl

/-- C67: the documented expression is not what is returned (opposite sign): two-level band, `t = π/2`. -/
theorem C67_documented_violated (eig : Eig (Fin 1)) (hs : EigSpec eig) :
    chi0Tr (toR (les eig 1 twoLevel)) (toR (gtr eig 1 twoLevel)) (Real.pi / 2) 0
      ≠ docChi0Tr (toR (les eig 1 twoLevel)) (toR (gtr eig 1 twoLevel)) (Real.pi / 2) 0 := by
  intro h
  have h1 := C67_documented_partial eig hs 1 twoLevel twoLevel_hermitian twoLevel_timeReversal (Real.pi / 2) 0
  rw [← h] at h1
  have h2 := congrFun (congrFun (congrFun (congrFun h1 0) 0) 0) 0
  simp only [Pi.neg_apply] at h2
  have h3 : chi0Tr (toR (les eig 1 twoLevel)) (toR (gtr eig 1 twoLevel)) (Real.pi / 2) 0 0 0 0 0 = 0 := by
    linear_combination (1 / 2 : ℂ) * h2
  have v : ∀ (w : ℝ → ℂ), toR (fun k => g0T eig 1 w (twoLevel k)) (Real.pi / 2) 0 0 0
      = (1 / 2 : ℂ) * (w (fermi 1) * -I + w (fermi 0)) := by
    intro w
    have hp : exp (-I * (1 : ℝ) * (Real.pi / 2 : ℝ)) = -I := by
      have : (-I * (1 : ℝ) * (Real.pi / 2 : ℝ) : ℂ) = -(Real.pi / 2 * I) := by push_cast; ring
      rw [this, exp_neg, exp_pi_div_two_mul_I, inv_I]
    have h0 : g0T eig 1 w (twoLevel 0) (Real.pi / 2) 0 0 = w (fermi 1) * -I := by
      rw [g0T_eq, one_band_matFun hs (twoLevel_hermitian 0) 1 (by simp [twoLevel]), hp]
      norm_num
    have h1' : g0T eig 1 w (twoLevel 1) (Real.pi / 2) 0 0 = w (fermi 0) := by
      rw [g0T_eq, one_band_matFun hs (twoLevel_hermitian 1) 0 (by simp [twoLevel])]
      norm_num
    rw [toR]
    simp only [kToR, fftw_neg_one, ker_zero_right, smul_eq_mul, one_mul]
    have hsum : (∑ k : Lat (fun _ : Fin 1 => 2), g0T eig 1 w (twoLevel k) (Real.pi / 2) 0 0)
        = g0T eig 1 w (twoLevel 0) (Real.pi / 2) 0 0 + g0T eig 1 w (twoLevel 1) (Real.pi / 2) 0 0 := by
      rw [← Equiv.sum_comp (Equiv.funUnique (Fin 1) (ZMod 2)).symm]
      exact Fin.sum_univ_two _
    rw [hsum, h0, h1']
    have hc : Fintype.card (Lat (fun _ : Fin 1 => 2)) = 2 := by
      rw [Fintype.card_pi]; simp
    rw [hc]
    norm_num
  rw [chi0Tr, neg_zero] at h3
  have vl := v (fun occ => I * occ)
  have vg := v (fun occ => -I * (1 - occ))
  change toR (les eig 1 twoLevel) (Real.pi / 2) 0 0 0 = _ at vl
  change toR (gtr eig 1 twoLevel) (Real.pi / 2) 0 0 0 = _ at vg
  rw [vl, vg] at h3
  have f1 : fermi 1 < fermi 0 := C20_fermi_strictAnti one_pos
  have h4 := congrArg Complex.re h3
  simp at h4
  nlinarith

end Verif.Lindhard
