import Verif.Fourier.Lemmas
import Verif.Parallel.Props
import Mathlib.Analysis.SpecialFunctions.Integrals.Basic
import Mathlib.Tactic.FieldSimp
import Mathlib.Tactic.FinCases

/-!
# C06, C11, C12, C13: Fourier transforms
-/

noncomputable section

namespace Verif.Fourier

open Complex Verif.Parallel

variable {d : ℕ} {n : Fin d → ℕ} [∀ i, NeZero (n i)]
variable {E : Type*} [AddCommGroup E] [Module ℂ E]
variable {W : Type*} [DecidableEq W]

set_option linter.unusedSectionVars false

/-! ## C06 -/

/-- C06: both orders of the two lattice transforms return the input on the whole frequency mesh, for every
lattice dimension and extent and every number of ranks. -/
theorem C06_roundtrip (r1 r2 : ℕ) (h1 : 0 < r1) (h2 : 0 < r2) (wmesh : List W) (hm : wmesh.Nodup)
    (g : W → Lat n → E) (w : W) (hw : w ∈ wmesh) :
    fourierWrToWk r1 wmesh (fourierWkToWr r2 wmesh g) w = g w ∧
    fourierWkToWr r2 wmesh (fourierWrToWk r1 wmesh g) w = g w := by
  constructor
  · rw [fourierWrToWk, C02_distributedAssign r1 h1 _ hm, if_pos hw, fourierWkToWr,
      C02_distributedAssign r2 h2 _ hm, if_pos hw, rToK_kToR]
  · rw [fourierWkToWr, C02_distributedAssign r2 h2 _ hm, if_pos hw, fourierWrToWk,
      C02_distributedAssign r1 h1 _ hm, if_pos hw, kToR_rToK]

/-- C06: linearity. -/
theorem C06_linear (g h : Lat n → E) (a b : ℂ) :
    kToR (fun k => a • g k + b • h k) = (fun r => a • kToR g r + b • kToR h r) ∧
    rToK (fun r => a • g r + b • h r) = (fun k => a • rToK g k + b • rToK h k) := by
  constructor
  · funext r
    simp only [kToR, fftw_neg_one, smul_add, Finset.sum_add_distrib, Finset.smul_sum, smul_smul]
    congr 1 <;> refine Finset.sum_congr rfl fun x _ => ?_ <;> congr 1 <;> ring
  · funext k
    simp only [rToK, fftw_one, smul_add, Finset.sum_add_distrib, Finset.smul_sum, smul_smul]
    congr 1 <;> refine Finset.sum_congr rfl fun x _ => ?_ <;> congr 1 <;> ring

/-- C06: a constant in momentum space becomes local. -/
theorem C06_constant_is_local (c : E) (r : Lat n) :
    kToR (fun _ : Lat n => c) r = if r = 0 then c else 0 := by
  simp only [kToR, fftw_neg_one, ← Finset.sum_smul, ← ker_neg_right, sum_ker, neg_eq_zero, smul_smul]
  split_ifs with h
  · rw [inv_mul_cancel₀ card_ne_zero', one_smul]
  · rw [mul_zero, zero_smul]

/-- C06: the value at the origin is the Brillouin zone average, and the value at `k = 0` is the lattice
sum (fixes both normalisations). -/
theorem C06_normalisation (g : Lat n → E) :
    kToR g 0 = (Fintype.card (Lat n) : ℂ)⁻¹ • ∑ k, g k ∧ rToK g 0 = ∑ r, g r := by
  simp [kToR, rToK, fftw_neg_one, fftw_one, ker_zero_right]

/-- C06: a shift in real space is a phase in momentum space with the documented sign: `δ_{r, r0}`
becomes `exp(2πi Σ k_i r0_i / n_i)`. -/
theorem C06_delta (r0 k : Lat n) : rToK (fun r => if r = r0 then (1 : ℂ) else 0) k
    = exp (2 * Real.pi * I * ∑ i, ((r0 i).val * (k i).val : ℂ) / n i) := by
  rw [exp_eq_ker, rToK, fftw_one]
  simp

/-! ## C11 -/

theorem interpolate_mesh (g : Lat n → E) (q : Lat n) :
    interpolate g (meshMomentum q) = ∑ r, ker (-r) q • g r := by
  simp only [interpolate]
  refine Finset.sum_congr rfl fun r _ => ?_
  rw [← exp_neg_eq_ker]
  congr 2
  push_cast
  simp only [meshMomentum, Finset.mul_sum, ← Finset.sum_neg_distrib]
  refine Finset.sum_congr rfl fun i _ => ?_
  push_cast
  ring

/-- C11, as computed: interpolation of lattice transformed data at a mesh momentum returns the value at the
opposite momentum. -/
theorem C11_value_at_minus_k (g : Lat n → E) (q : Lat n) :
    interpolate (kToR g) (meshMomentum q) = g (-q) := by
  rw [interpolate_mesh]
  have := congrFun (rToK_kToR g) (-q)
  rw [rToK, fftw_one] at this
  rw [← this]
  refine Finset.sum_congr rfl fun r _ => ?_
  rw [ker_neg_right]

/-- C11 for inversion symmetric data. -/
theorem C11_interpolation_partial (g : Lat n → E) (hg : ∀ k, g (-k) = g k) (q : Lat n) :
    interpolate (kToR g) (meshMomentum q) = g q := by
  rw [C11_value_at_minus_k, hg]

/-- C11 is violated: chain of three sites. -/
theorem C11_interpolation_violated :
    ∃ g : Lat (fun _ : Fin 1 => 3) → ℂ, ∃ q, interpolate (kToR g) (meshMomentum q) ≠ g q := by
  refine ⟨fun k => if k 0 = 1 then 1 else 0, fun _ => 1, ?_⟩
  rw [C11_value_at_minus_k]
  have : ((-fun _ => 1 : Lat (fun _ : Fin 1 => 3)) 0 : ZMod 3) ≠ 1 := by decide
  simp only [this, if_false, if_true]
  exact zero_ne_one

/-- inversion symmetric data exist that are not constant -/
example : ∃ g : Lat (fun _ : Fin 1 => 3) → ℂ, (∀ k, g (-k) = g k) ∧ g 0 ≠ g (fun _ => 1) :=
  ⟨fun k => if k = 0 then 1 else 0, fun k => by simp, by
    have : (fun _ => 1 : Lat (fun _ : Fin 1 => 3)) ≠ 0 := by
      intro h; exact absurd (congrFun h 0) (by decide)
    simp [this]⟩

/-! ## C12 -/

/-- C12: the residues reproduce the three moments, both statistics. -/
theorem C12_moments (s : Stat) (m1 m2 m3 : ℂ) :
    ∑ j, poleA s m1 m2 m3 j = m1 ∧ ∑ j, poleA s m1 m2 m3 j * poleB s j = m2 ∧
    ∑ j, poleA s m1 m2 m3 j * (poleB s j) ^ 2 = m3 := by
  cases s
  · simp only [poleA, poleB, Fin.sum_univ_three]
    refine ⟨?_, ?_, ?_⟩ <;> simp <;> ring
  · simp only [poleA, poleB, Fin.sum_univ_three]
    refine ⟨?_, ?_, ?_⟩ <;> simp <;> ring

/-- C12: the tail function agrees with `m1/w + m2/w² + m3/w³` up to an explicit remainder of order
`w⁻⁴`. -/
theorem C12_tail_expansion (s : Stat) (m1 m2 m3 w : ℂ) (hw : w ≠ 0)
    (hp : ∀ j, w - poleB s j ≠ 0) :
    tailW s m1 m2 m3 w = m1 / w + m2 / w ^ 2 + m3 / w ^ 3
      + ∑ j, poleA s m1 m2 m3 j * (poleB s j) ^ 3 / (w ^ 3 * (w - poleB s j)) := by
  obtain ⟨h1, h2, h3⟩ := C12_moments s m1 m2 m3
  have e : ∀ j, poleA s m1 m2 m3 j / (w - poleB s j)
      = poleA s m1 m2 m3 j / w + poleA s m1 m2 m3 j * poleB s j / w ^ 2
        + poleA s m1 m2 m3 j * (poleB s j) ^ 2 / w ^ 3
        + poleA s m1 m2 m3 j * (poleB s j) ^ 3 / (w ^ 3 * (w - poleB s j)) := by
    intro j
    have := hp j
    field_simp
    ring
  rw [tailW]
  simp only [e, Finset.sum_add_distrib, ← Finset.sum_div, h1, h2, h3]

/-- Matsubara frequencies never hit a pole. -/
theorem matsubara_ne_pole (s : Stat) (beta : ℝ) (hb : 0 < beta) (m : ℤ) (j : Fin 3) :
    matsubara s beta m - poleB s j ≠ 0 := by
  intro h
  have hre := congrArg Complex.re h
  have him := congrArg Complex.im h
  cases s
  · have e : matsubara .fermion beta m = (((2 * m + 1) * Real.pi / beta : ℝ) : ℂ) * I := by
      simp only [matsubara]; push_cast; ring
    rw [e] at him
    simp only [Complex.sub_im, Complex.im_ofReal_mul, Complex.I_im, Complex.ofReal_im,
      Complex.zero_im] at him
    have : ((2 * m + 1 : ℤ) : ℝ) ≠ 0 := by
      have : (2 * m + 1 : ℤ) ≠ 0 := by omega
      exact_mod_cast this
    push_cast at this
    have h3 : (2 * (m : ℝ) + 1) * Real.pi / beta ≠ 0 := by
      apply div_ne_zero (mul_ne_zero this Real.pi_ne_zero) hb.ne'
    apply h3
    linarith
  · have e : matsubara .boson beta m = ((2 * m * Real.pi / beta : ℝ) : ℂ) * I := by
      simp only [matsubara]; push_cast; ring
    rw [e] at hre
    simp only [Complex.sub_re, Complex.re_ofReal_mul, Complex.I_re, Complex.ofReal_re, mul_zero,
      Complex.zero_re, zero_sub, neg_eq_zero] at hre
    fin_cases j <;> simp [poleB] at hre

/-- both branches of `oneFermion` are the same function -/
theorem oneFermion_eq (a : ℂ) (b tau beta : ℝ) :
    oneFermion a b tau beta = -a * ((Real.exp (-b * tau) / (1 + Real.exp (-beta * b)) : ℝ) : ℂ) := by
  unfold oneFermion
  split_ifs with h
  · rfl
  · congr 2
    rw [div_eq_div_iff (by positivity) (by positivity), mul_add, mul_add, ← Real.exp_add,
      ← Real.exp_add]
    ring_nf

theorem oneBoson_eq (a : ℂ) (b tau beta : ℝ) (hb : b ≠ 0) (hbeta : 0 < beta) :
    oneBoson a b tau beta = a * ((Real.exp (-b * tau) / (Real.exp (-beta * b) - 1) : ℝ) : ℂ) := by
  unfold oneBoson
  split_ifs with h
  · rfl
  · congr 2
    have h1 : Real.exp (-beta * b) - 1 ≠ 0 := by
      rw [sub_ne_zero, Ne, Real.exp_eq_one_iff]
      simp [hbeta.ne', hb]
    have h2 : 1 - Real.exp (b * beta) ≠ 0 := by
      rw [sub_ne_zero, ne_comm, Ne, Real.exp_eq_one_iff]
      simp [hbeta.ne', hb]
    rw [div_eq_div_iff h2 h1]
    have e1 : Real.exp (b * (beta - tau)) = Real.exp (b * beta) * Real.exp (-b * tau) := by
      rw [← Real.exp_add]; congr 1; ring
    have e2 : Real.exp (b * beta) * Real.exp (-beta * b) = 1 := by
      rw [← Real.exp_add, ← Real.exp_zero]; congr 1; ring
    rw [e1]
    linear_combination Real.exp (-b * tau) * e2

/-- C12: the jump of a pole in imaginary time is its residue, both statistics. -/
theorem C12_jump (a : ℂ) (b beta : ℝ) (hbeta : 0 < beta) :
    -(oneFermion a b 0 beta + oneFermion a b beta beta) = a ∧
    (b ≠ 0 → -(oneBoson a b 0 beta - oneBoson a b beta beta) = a) := by
  constructor
  · rw [oneFermion_eq, oneFermion_eq]
    have h : (1 + Real.exp (-beta * b) : ℝ) ≠ 0 := by positivity
    have e : (Real.exp (-b * 0) / (1 + Real.exp (-beta * b)) + Real.exp (-b * beta)
        / (1 + Real.exp (-beta * b)) : ℝ) = 1 := by
      rw [← add_div, mul_zero, Real.exp_zero, show -b * beta = -beta * b by ring, div_self h]
    have e' := congrArg (fun x : ℝ => (x : ℂ)) e
    simp only [Complex.ofReal_add, Complex.ofReal_one] at e'
    calc _ = a * (((Real.exp (-b * 0) / (1 + Real.exp (-beta * b)) : ℝ) : ℂ)
          + ((Real.exp (-b * beta) / (1 + Real.exp (-beta * b)) : ℝ) : ℂ)) := by ring
      _ = a := by rw [e', mul_one]
  · intro hb
    rw [oneBoson_eq _ _ _ _ hb hbeta, oneBoson_eq _ _ _ _ hb hbeta]
    have h : (Real.exp (-beta * b) - 1 : ℝ) ≠ 0 := by
      rw [sub_ne_zero, Ne, Real.exp_eq_one_iff]
      simp [hbeta.ne', hb]
    have e : (Real.exp (-b * beta) / (Real.exp (-beta * b) - 1) - Real.exp (-b * 0)
        / (Real.exp (-beta * b) - 1) : ℝ) = 1 := by
      rw [← sub_div, mul_zero, Real.exp_zero, show -b * beta = -beta * b by ring, div_self h]
    have e' := congrArg (fun x : ℝ => (x : ℂ)) e
    simp only [Complex.ofReal_sub, Complex.ofReal_one] at e'
    calc _ = a * (((Real.exp (-b * beta) / (Real.exp (-beta * b) - 1) : ℝ) : ℂ)
          - ((Real.exp (-b * 0) / (Real.exp (-beta * b) - 1) : ℝ) : ℂ)) := by ring
      _ = a := by rw [e', mul_one]

/-- C12: the jump of the complete tail model is the first moment. -/
theorem C12_tail_jump (m1 m2 m3 : ℂ) (beta : ℝ) (hbeta : 0 < beta) :
    -(tailT .fermion m1 m2 m3 beta 0 + tailT .fermion m1 m2 m3 beta beta) = m1 ∧
    -(tailT .boson m1 m2 m3 beta 0 - tailT .boson m1 m2 m3 beta beta) = m1 := by
  constructor
  · simp only [tailT, ← Finset.sum_add_distrib, ← Finset.sum_neg_distrib]
    rw [Finset.sum_congr rfl fun j _ => (C12_jump _ _ beta hbeta).1]
    exact (C12_moments .fermion m1 m2 m3).1
  · simp only [tailT, ← Finset.sum_sub_distrib, ← Finset.sum_neg_distrib]
    rw [Finset.sum_congr rfl fun j _ => (C12_jump _ _ beta hbeta).2 (by fin_cases j <;> simp [poleB])]
    exact (C12_moments .boson m1 m2 m3).1

/-- `exp(iω_m β)` is `-1` for fermions and `1` for bosons -/
theorem exp_matsubara (s : Stat) (beta : ℝ) (hb : 0 < beta) (m : ℤ) :
    exp (matsubara s beta m * beta) = match s with
      | .fermion => -1
      | .boson => 1 := by
  have hb' : (beta : ℂ) ≠ 0 := by exact_mod_cast hb.ne'
  cases s
  · have : matsubara .fermion beta m * beta = Real.pi * I + m * (2 * Real.pi * I) := by
      simp only [matsubara]; field_simp; ring
    simp only [this]
    rw [exp_add, exp_pi_mul_I, exp_int_mul_two_pi_mul_I, mul_one]
  · have : matsubara .boson beta m * beta = m * (2 * Real.pi * I) := by
      simp only [matsubara]; field_simp
    simp only [this]
    rw [exp_int_mul_two_pi_mul_I]

/-- C12: the two forms of the tail model are transforms of each other: the Matsubara integral of the imaginary
time form is the frequency form, at every Matsubara frequency. -/
theorem C12_tail_transform (s : Stat) (m1 m2 m3 : ℂ) (beta : ℝ) (hbeta : 0 < beta) (m : ℤ) :
    ∫ tau in (0 : ℝ)..beta, exp (matsubara s beta m * tau) * tailT s m1 m2 m3 beta tau
      = tailW s m1 m2 m3 (matsubara s beta m) := by
  -- one exponential
  have one : ∀ (a : ℂ) (b : ℝ) (c : ℂ), matsubara s beta m - b ≠ 0 →
      ∫ tau in (0 : ℝ)..beta, exp (matsubara s beta m * tau) * (a * (c * Real.exp (-b * tau)))
        = a * c * ((exp (matsubara s beta m * beta) * Real.exp (-b * beta) - 1)
          / (matsubara s beta m - b)) := by
    intro a b c hne
    have h1 : ∀ tau : ℝ, exp (matsubara s beta m * tau) * (a * (c * Real.exp (-b * tau)))
        = a * c * exp ((matsubara s beta m - b) * tau) := by
      intro tau
      rw [sub_mul, sub_eq_add_neg, exp_add]
      push_cast
      rw [show (-(b * tau : ℂ)) = -b * tau by ring]
      ring
    simp only [h1]
    rw [intervalIntegral.integral_const_mul, integral_exp_mul_complex hne]
    congr 2
    have e3 : exp ((matsubara s beta m - b) * beta)
        = exp (matsubara s beta m * beta) * Real.exp (-b * beta) := by
      push_cast
      rw [← exp_add]; congr 1; ring
    rw [e3]
    simp
  have hcont : ∀ (a c : ℂ) (b : ℝ), IntervalIntegrable
      (fun tau : ℝ => exp (matsubara s beta m * tau) * (a * (c * Real.exp (-b * tau))))
      MeasureTheory.volume 0 beta := by
    intro a c b
    apply Continuous.intervalIntegrable
    fun_prop
  cases s
  · have e : ∀ tau : ℝ, exp (matsubara .fermion beta m * tau) * tailT .fermion m1 m2 m3 beta tau
        = ∑ j, exp (matsubara .fermion beta m * tau) * (-poleA .fermion m1 m2 m3 j
          * (((1 + Real.exp (-beta * poleB .fermion j) : ℝ) : ℂ)⁻¹
            * Real.exp (-poleB .fermion j * tau))) := by
      intro tau
      simp only [tailT, oneFermion_eq, Finset.mul_sum]
      refine Finset.sum_congr rfl fun j _ => ?_
      push_cast
      rw [div_eq_inv_mul]
    simp only [e]
    rw [intervalIntegral.integral_finsetSum fun j _ => hcont _ _ _]
    simp only [one _ _ _ (matsubara_ne_pole .fermion beta hbeta m _), exp_matsubara .fermion beta hbeta m,
      tailW]
    refine Finset.sum_congr rfl fun j _ => ?_
    have hne := matsubara_ne_pole .fermion beta hbeta m j
    have hp : ((1 + Real.exp (-beta * poleB .fermion j) : ℝ) : ℂ) ≠ 0 := by
      have : (1 + Real.exp (-beta * poleB .fermion j) : ℝ) ≠ 0 := by positivity
      exact_mod_cast this
    have h2 : ((-1 : ℂ) * Real.exp (-poleB .fermion j * beta) - 1)
        = -((1 + Real.exp (-beta * poleB .fermion j) : ℝ) : ℂ) := by
      rw [show -poleB Stat.fermion j * beta = -beta * poleB .fermion j by ring]
      push_cast; ring
    rw [h2, neg_mul, neg_mul, neg_div, mul_neg, neg_neg, ← mul_div_assoc, mul_assoc, inv_mul_cancel₀ hp, mul_one]
  · have hb0 : ∀ j, poleB .boson j ≠ 0 := by intro j; fin_cases j <;> simp [poleB]
    have e : ∀ tau : ℝ, exp (matsubara .boson beta m * tau) * tailT .boson m1 m2 m3 beta tau
        = ∑ j, exp (matsubara .boson beta m * tau) * (poleA .boson m1 m2 m3 j
          * (((Real.exp (-beta * poleB .boson j) - 1 : ℝ) : ℂ)⁻¹
            * Real.exp (-poleB .boson j * tau))) := by
      intro tau
      simp only [tailT, Finset.mul_sum]
      refine Finset.sum_congr rfl fun j _ => ?_
      rw [oneBoson_eq _ _ _ _ (hb0 j) hbeta]
      push_cast
      rw [div_eq_inv_mul]
    simp only [e]
    rw [intervalIntegral.integral_finsetSum fun j _ => hcont _ _ _]
    simp only [one _ _ _ (matsubara_ne_pole .boson beta hbeta m _), exp_matsubara .boson beta hbeta m,
      tailW]
    refine Finset.sum_congr rfl fun j _ => ?_
    have hne := matsubara_ne_pole .boson beta hbeta m j
    have hp : ((Real.exp (-beta * poleB .boson j) - 1 : ℝ) : ℂ) ≠ 0 := by
      have : (Real.exp (-beta * poleB .boson j) - 1 : ℝ) ≠ 0 := by
        rw [sub_ne_zero, Ne, Real.exp_eq_one_iff]
        simp [hbeta.ne', hb0 j]
      exact_mod_cast this
    have h2 : ((1 : ℂ) * Real.exp (-poleB .boson j * beta) - 1)
        = ((Real.exp (-beta * poleB .boson j) - 1 : ℝ) : ℂ) := by
      rw [show -poleB Stat.boson j * beta = -beta * poleB .boson j by ring]
      push_cast; ring
    rw [h2, ← mul_div_assoc, mul_assoc, inv_mul_cancel₀ hp, mul_one]

/-! ## C13 -/

theorem shiftPhase_mul (s : Stat) (beta tau : ℝ) :
    shiftPhase s beta tau 1 * shiftPhase s beta tau (-1) = 1 := by
  cases s
  · simp only [shiftPhase]
    rw [← exp_add, ← exp_zero]
    congr 1
    push_cast
    ring
  · simp [shiftPhase]

theorem wrap_lt (L : ℕ) (hL : 0 < L) (m : ℤ) : wrap L m < L := by
  have h1 := Int.emod_nonneg (m + L) (show (L : ℤ) ≠ 0 by omega)
  have h2 := Int.emod_lt_of_pos (m + L) (show (0 : ℤ) < L by omega)
  simp only [wrap]
  omega

theorem wrap_inj (L : ℕ) (hL : 0 < L) (m m' : ℤ) (h : |m - m'| < L) (e : wrap L m = wrap L m') :
    m = m' := by
  have h1 := Int.emod_nonneg (m + L) (show (L : ℤ) ≠ 0 by omega)
  have h1' := Int.emod_nonneg (m' + L) (show (L : ℤ) ≠ 0 by omega)
  have e2 : (m + L) % L = (m' + L) % L := by
    simp only [wrap] at e; omega
  have e3 : (L : ℤ) ∣ (m - m') := by
    have := Int.emod_emod_of_dvd
    have h4 := (Int.emod_eq_emod_iff_emod_sub_eq_zero (m := (m + L)) (n := (L : ℤ)) (k := m' + L)).1 e2
    have h5 : m + L - (m' + L) = m - m' := by ring
    rw [h5] at h4
    exact Int.dvd_of_emod_eq_zero h4
  have := Int.eq_zero_of_abs_lt_dvd e3 h
  omega

theorem wIndices_bound (s : Stat) (N : ℕ) (m : ℤ) (hm : m ∈ wIndices s N) :
    -(N : ℤ) ≤ m ∧ m < N := by
  cases s
  · simp only [wIndices, List.mem_map, List.mem_range] at hm
    obtain ⟨j, hj, rfl⟩ := hm; omega
  · simp only [wIndices, List.mem_map, List.mem_range] at hm
    obtain ⟨j, hj, rfl⟩ := hm; omega

/-- the content of `_gin` after all stores -/
theorem gin_value (s : Stat) (beta : ℝ) (L : ℕ) (hL : 0 < L) (m1 m2 m3 : ℂ) (gw : ℤ → ℂ) (l : List ℤ)
    (hl : ∀ x ∈ l, ∀ y ∈ l, |x - y| < L) (acc : ℕ → ℂ) (m : ℤ) (hm : m ∈ l) :
    l.foldl (ginStore s beta L m1 m2 m3 gw) acc (wrap L m)
      = (1 / beta : ℂ) * (gw m - tailW s m1 m2 m3 (matsubara s beta m)) := by
  induction l generalizing acc with
  | nil => simp at hm
  | cons x t ih =>
    rw [List.foldl_cons]
    by_cases ht : m ∈ t
    · exact ih (fun a ha b hb => hl a (List.mem_cons_of_mem _ ha) b (List.mem_cons_of_mem _ hb)) _ ht
    · have hx : m = x := by
        rcases List.mem_cons.1 hm with h | h
        · exact h
        · exact absurd h ht
      have other : ∀ (t : List ℤ) (acc : ℕ → ℂ), (∀ y ∈ t, wrap L y ≠ wrap L m) →
          t.foldl (ginStore s beta L m1 m2 m3 gw) acc (wrap L m) = acc (wrap L m) := by
        intro t
        induction t with
        | nil => intros; rfl
        | cons y t ih2 =>
          intro acc hne
          rw [List.foldl_cons, ih2 _ fun z hz => hne z (List.mem_cons_of_mem _ hz)]
          rw [ginStore, Function.update_of_ne (Ne.symm (hne y (by simp)))]
      rw [other t _ ?_]
      · subst hx; rw [ginStore, Function.update_self]
      · intro y hy e
        have := wrap_inj L hL y m (hl y (List.mem_cons_of_mem _ hy) m hm) e
        exact ht (this ▸ hy)

/-- C13: Matsubara → imaginary time → Matsubara returns the data at every frequency of the mesh, for every
size that passes the check, both statistics and arbitrary moments (the first moment is recovered from
the boundary values, second and third are the ones given). -/
theorem C13_roundtrip (s : Stat) (beta : ℝ) (hb : 0 < beta) (L N : ℕ) (hN : 0 < N) (hL : 2 * N ≤ L)
    (m1 m2 m3 : ℂ) (gw : ℤ → ℂ) :
    ∃ gt gw', wToTau s beta L N m1 m2 m3 gw = .ok gt ∧ tauToW s beta L N m2 m3 gt = .ok gw' ∧
      ∀ m ∈ wIndices s N, gw' m = gw m := by
  have hLpos : 0 < L := by omega
  have hL0 : (L : ℂ) ≠ 0 := by exact_mod_cast hLpos.ne'
  have hb0 : (beta : ℂ) ≠ 0 := by exact_mod_cast hb.ne'
  refine ⟨_, _, if_neg (not_lt.2 hL), if_neg (not_lt.2 hL), ?_⟩
  intro m hm
  simp only
  set gin := (wIndices s N).foldl (ginStore s beta L m1 m2 m3 gw) fun _ => 0 with hgin
  set gt0 : ℕ → ℂ := fun t => fftw1 (-1) L gin t * shiftPhase s beta (tauOf beta L t) (-1)
      + tailT s m1 m2 m3 beta (tauOf beta L t) with hgt0
  set gt := Function.update gt0 L (boundarySign s * (gt0 0 + m1)) with hgt
  have hm1 : firstMoment s (gt 0) (gt L) = m1 := by
    have h0 : gt 0 = gt0 0 := Function.update_of_ne (by omega) _ _
    have hLv : gt L = boundarySign s * (gt0 0 + m1) := Function.update_self ..
    rw [h0, hLv]
    cases s
    · simp only [firstMoment, boundarySign]; ring
    · simp only [firstMoment, boundarySign]; ring
  change fftw1 1 L (fun t => (beta / L : ℂ) * (shiftPhase s beta (tauOf beta L t) 1
      * (gt t - tailT s (firstMoment s (gt 0) (gt L)) m2 m3 beta (tauOf beta L t)))) (wrap L m)
    + tailW s (firstMoment s (gt 0) (gt L)) m2 m3 (matsubara s beta m) = gw m
  rw [hm1]
  have hin : ∀ t ∈ Finset.range L, (beta / L : ℂ) * (shiftPhase s beta (tauOf beta L t) 1
      * (gt t - tailT s m1 m2 m3 beta (tauOf beta L t)))
      = beta * ((1 / L : ℂ) * fftw1 (-1) L gin t) := by
    intro t ht
    have htL : t ≠ L := by have := Finset.mem_range.1 ht; omega
    have : gt t = gt0 t := Function.update_of_ne htL _ _
    rw [this, hgt0]
    simp only
    rw [add_sub_cancel_right, mul_comm (fftw1 _ _ _ _), ← mul_assoc (shiftPhase _ _ _ _), shiftPhase_mul,
      one_mul]
    ring
  have hfft : fftw1 1 L (fun t => (beta / L : ℂ) * (shiftPhase s beta (tauOf beta L t) 1
      * (gt t - tailT s m1 m2 m3 beta (tauOf beta L t)))) (wrap L m) = beta * gin (wrap L m) := by
    rw [← fftw1_roundtrip L gin (wrap L m) (wrap_lt L hLpos m)]
    simp only [fftw1, Finset.mul_sum]
    refine Finset.sum_congr rfl fun t ht => ?_
    have := hin t ht
    simp only [fftw1, Finset.mul_sum] at this
    rw [this]
    simp only [Finset.mul_sum]
    refine Finset.sum_congr rfl fun u _ => ?_
    ring
  rw [hfft, hgin, gin_value s beta L hLpos m1 m2 m3 gw _ ?_ _ m hm]
  · field_simp
    ring
  · intro x hx y hy
    have h1 := wIndices_bound s N x hx
    have h2 := wIndices_bound s N y hy
    rw [abs_lt]
    omega

/-- C13: the size check refuses every smaller time mesh, in both directions. -/
theorem C13_refuses (s : Stat) (beta : ℝ) (L N : ℕ) (hL : L < 2 * N) (m1 m2 m3 : ℂ) (gw : ℤ → ℂ)
    (gt : ℕ → ℂ) : (∃ e, wToTau s beta L N m1 m2 m3 gw = .error e) ∧
      ∃ e, tauToW s beta L N m2 m3 gt = .error e :=
  ⟨⟨_, if_pos hL⟩, ⟨_, if_pos hL⟩⟩

/-- the mesh of the round trip theorem is not empty -/
example : wIndices .fermion 2 = [-2, -1, 0, 1] ∧ wIndices .boson 2 = [-1, 0, 1] := by decide

end Verif.Fourier
