import Verif.Bse.Props
import Verif.Lindhard.Props
import Verif.HubbardAtom.Lemmas
import Mathlib.NumberTheory.ZetaValues

/-!
# Imaginary frequency and imaginary time route to the bubble (C92)

The Green's functions of this file are finite sums of poles, the form of the discrete Lehmann representation
(and of every non-interacting Green's function). Their values in frequency and time are known in closed form, so the
frequency sum of `chi0q_sum_nu` over growing windows can be compared with the integral of the imaginary time bubble.
-/

set_option linter.unusedSectionVars false

noncomputable section

namespace Verif.Bubble

open Complex MeasureTheory Verif.Parallel Verif.Fourier Verif.Lindhard

variable {d : ℕ} {n : Fin d → ℕ} [∀ i, NeZero (n i)] {o : Type} [Fintype o] [DecidableEq o]

/-! ## Model -/

/-- one lattice vector of `chi0_tr_from_grt_PH` on a discrete Lehmann mesh,
`/repo/c++/triqs_tprf/lattice/chi_imtime.cpp:72-73`; `g` is the function that the coefficients `g_pr_c`, `g_mr_c`
evaluate to, at any time. -/
def chi0tDlrPoint (beta : ℝ) (g : ℝ → Lat n → o → o → ℂ) (r : Lat n) (t : ℝ) : T4 o := fun a b c d =>
  g t r d a * g (beta - t) (-r) b c

/-- `chi0_tr_from_grt_PH` on a discrete Lehmann mesh, `/repo/c++/triqs_tprf/lattice/chi_imtime.cpp:38-83`. -/
def chi0trDlr (ranks : ℕ) (beta : ℝ) (rmesh : List (Lat n)) (g : ℝ → Lat n → o → o → ℂ) :
    Lat n → ℝ → T4 o :=
  distributedAssign ranks rmesh fun r => chi0tDlrPoint beta g r

/-! ## Sums of poles -/

/-- a Green's function with finitely many simple poles at every momentum -/
structure Poles (n : Fin d → ℕ) (o : Type) where
  /-- labels of the poles -/
  L : Type
  [fin : Fintype L]
  /-- position -/
  eps : Lat n → L → ℝ
  /-- residue -/
  res : Lat n → L → o → o → ℂ

attribute [instance] Poles.fin

/-- value at a fermionic Matsubara frequency -/
def Poles.freq (p : Poles n o) (beta : ℝ) : G n o := fun nu k a b =>
  ∑ l, p.res k l a b / (matsubara .fermion beta nu - p.eps k l)

/-- value at an imaginary time between `0` and `β` -/
def Poles.time (p : Poles n o) (beta : ℝ) (t : ℝ) (k : Lat n) (a b : o) : ℂ :=
  ∑ l, p.res k l a b * freeTau beta t (p.eps k l)

/-- value in time and real space -/
def Poles.timeR (p : Poles n o) (beta : ℝ) (t : ℝ) (r : Lat n) (a b : o) : ℂ :=
  kToR (fun k => p.time beta t k a b) r

theorem fermion_ne (beta : ℝ) (hb : 0 < beta) (m : ℤ) (x : ℝ) : matsubara .fermion beta m - (x : ℂ) ≠ 0 := by
  intro h
  have him := congrArg Complex.im h
  have e : matsubara .fermion beta m - (x : ℂ) = ((-x : ℝ) : ℂ) + (((2 * m + 1) * Real.pi / beta : ℝ) : ℂ) * I := by
    simp only [matsubara]; push_cast; ring
  rw [e] at him
  simp only [add_im, ofReal_im, mul_im, ofReal_re, I_im, I_re, mul_one, mul_zero, add_zero, zero_add, zero_im] at him
  have h1 : ((2 * m + 1 : ℤ) : ℝ) = 0 := by
    rw [div_eq_zero_iff] at him
    rcases him with h | h
    · rcases mul_eq_zero.1 h with h | h
      · push_cast; exact h
      · exact absurd h Real.pi_ne_zero
    · exact absurd h hb.ne'
  have : (2 * m + 1 : ℤ) = 0 := by exact_mod_cast h1
  omega

/-- the time function is the one that belongs to the frequency function -/
theorem Poles.time_freq (p : Poles n o) (beta : ℝ) (hb : 0 < beta) (nu : ℤ) (k : Lat n) (a b : o) :
    ∫ t in (0 : ℝ)..beta, exp (matsubara .fermion beta nu * t) * p.time beta t k a b = p.freq beta nu k a b := by
  simp only [Poles.time, Poles.freq, Finset.mul_sum]
  rw [intervalIntegral.integral_finsetSum]
  · refine Finset.sum_congr rfl fun l _ => ?_
    set z := matsubara .fermion beta nu with hz
    set x := p.eps k l
    have hne : z - (x : ℂ) ≠ 0 := fermion_ne beta hb nu x
    have h1 : ∀ t : ℝ, exp (z * t) * (p.res k l a b * freeTau beta t x)
        = (-p.res k l a b * ((1 - fermi (x * beta) : ℝ) : ℂ)) * exp ((z - (x : ℂ)) * t) := by
      intro t
      have e1 : exp ((z - (x : ℂ)) * t) = exp (z * t) * ((Real.exp (-x * t) : ℝ) : ℂ) := by
        push_cast
        rw [← exp_add]; congr 1; ring
      rw [e1, freeTau]
      push_cast
      ring
    simp only [h1]
    rw [intervalIntegral.integral_const_mul, integral_exp_mul_complex hne]
    have e3 : exp ((z - (x : ℂ)) * beta) = -((Real.exp (-x * beta) : ℝ) : ℂ) := by
      rw [sub_mul, sub_eq_add_neg, exp_add, hz, exp_matsubara .fermion beta hb nu]
      push_cast
      rw [neg_one_mul]
      congr 2
      ring
    rw [e3]
    have hf : (1 - fermi (x * beta)) * (Real.exp (-x * beta) + 1) = 1 := by
      rw [C20_fermi]
      have := Real.exp_pos (x * beta)
      rw [show -x * beta = -(x * beta) by ring, Real.exp_neg]
      field_simp
      ring
    have hf' : ((1 - fermi (x * beta) : ℝ) : ℂ) * (((Real.exp (-x * beta) : ℝ) : ℂ) + 1) = 1 := by
      exact_mod_cast hf
    simp only [ofReal_zero, mul_zero, exp_zero]
    rw [← mul_div_assoc]
    congr 1
    linear_combination p.res k l a b * hf'
  · intro l _
    have : Continuous (fun t : ℝ => exp (matsubara .fermion beta nu * t) * (p.res k l a b * freeTau beta t (p.eps k l))) := by
      unfold freeTau
      fun_prop
    exact this.intervalIntegrable 0 beta

/-! ## Frequency sums -/

theorem hasSum_half_sq : HasSum (fun n : ℤ => 1 / ((1 / 2 : ℂ) + n) ^ 2) ((Real.pi : ℂ) ^ 2) := by
  -- odd numbers
  have hz := hasSum_zeta_two
  have he : HasSum (fun k : ℕ => 1 / ((2 * k : ℕ) : ℝ) ^ 2) (Real.pi ^ 2 / 6 / 4) := by
    have := hz.div_const 4
    refine this.congr_fun fun k => ?_
    push_cast
    ring
  have hod : Summable fun k : ℕ => 1 / ((2 * k + 1 : ℕ) : ℝ) ^ 2 :=
    hz.summable.comp_injective (i := fun k : ℕ => 2 * k + 1) fun a b h => by
      have : 2 * a + 1 = 2 * b + 1 := h
      omega
  have hsum := (he.even_add_odd (f := fun k : ℕ => 1 / (k : ℝ) ^ 2) hod.hasSum).unique hz
  have hov : HasSum (fun k : ℕ => 1 / ((2 * k + 1 : ℕ) : ℝ) ^ 2) (Real.pi ^ 2 / 8) := by
    have : ∑' k : ℕ, 1 / ((2 * k + 1 : ℕ) : ℝ) ^ 2 = Real.pi ^ 2 / 8 := by linarith
    rw [← this]
    exact hod.hasSum
  have hc : HasSum (fun k : ℕ => 1 / ((1 / 2 : ℂ) + ((k : ℕ) : ℤ)) ^ 2) ((Real.pi : ℂ) ^ 2 / 2) := by
    have h4 := (hov.mul_left 4)
    have h5 := (Complex.hasSum_ofReal.2 h4 : HasSum _ _)
    have e : (((4 * (Real.pi ^ 2 / 8) : ℝ)) : ℂ) = (Real.pi : ℂ) ^ 2 / 2 := by push_cast; ring
    rw [e] at h5
    refine h5.congr_fun fun k => ?_
    push_cast
    have h1 : ((2 : ℂ) * k + 1) ≠ 0 := by exact_mod_cast (by omega : (2 * k + 1 : ℕ) ≠ 0)
    rw [show ((1 : ℂ) / 2 + k) = (2 * k + 1) / 2 by ring]
    field_simp
    norm_num
  have hneg : HasSum (fun k : ℕ => 1 / ((1 / 2 : ℂ) + ((-((k : ℤ) + 1) : ℤ))) ^ 2) ((Real.pi : ℂ) ^ 2 / 2) := by
    refine hc.congr_fun fun k => ?_
    congr 1
    push_cast
    ring
  have := HasSum.of_nat_of_neg_add_one (f := fun n : ℤ => 1 / ((1 / 2 : ℂ) + n) ^ 2) hc hneg
  rwa [add_halves] at this

theorem hasSum_inv_sq_line (u : ℝ) :
    HasSum (fun n : ℤ => 1 / ((1 / 2 : ℂ) + u * I + n) ^ 2) ((Real.pi / cosh (Real.pi * u)) ^ 2) := by
  have hpos : ∀ u : ℝ, 0 < u →
      HasSum (fun n : ℤ => 1 / ((1 / 2 : ℂ) + u * I + n) ^ 2) ((Real.pi / cosh (Real.pi * u)) ^ 2) := by
    intro u hu
    have h := HubbardAtom.hasSum_inv_sq (z := (1 / 2 : ℂ) + u * I) (by simpa using hu)
    have e : sin (Real.pi * ((1 / 2 : ℂ) + u * I)) = cosh (Real.pi * u) := by
      rw [show (Real.pi : ℂ) * ((1 / 2 : ℂ) + u * I) = Real.pi * u * I + Real.pi / 2 by ring, sin_add_pi_div_two,
        cos_mul_I]
    rw [e] at h
    exact h
  rcases lt_trichotomy u 0 with hu | hu | hu
  · have h := hpos (-u) (by linarith)
    rw [show ((Real.pi : ℂ) * ((-u : ℝ) : ℂ)) = -(Real.pi * u) by push_cast; ring, cosh_neg] at h
    have h2 := (Equiv.subRight (1 : ℤ)).symm.hasSum_iff.2 ((Equiv.neg ℤ).hasSum_iff.2 h)
    refine h2.congr_fun fun k => ?_
    simp only [Function.comp_apply, Equiv.neg_apply, Equiv.subRight_symm_apply]
    congr 1
    push_cast
    ring
  · subst hu
    have h := hasSum_half_sq
    simpa using h
  · exact hpos u hu

theorem line_mem (u : ℝ) (m : ℤ) : (1 / 2 : ℂ) + u * I + m ∈ Complex.integerComplement := by
  rintro ⟨k, hk⟩
  have hre := congrArg Complex.re hk
  simp at hre
  have h2 : (2 * k : ℝ) = 1 + 2 * m := by linarith
  have : (2 * k : ℤ) = 1 + 2 * m := by exact_mod_cast h2
  omega

theorem cot_line (u : ℝ) (m : ℤ) : cot (Real.pi * ((1 / 2 : ℂ) + u * I + m)) = -(tanh (Real.pi * u) * I) := by
  rw [show (1 / 2 : ℂ) + u * I + m = 1 / 2 - (-(u * I) - m) by ring, HubbardAtom.cot_half_sub,
    show (Real.pi : ℂ) * (-(u * I) - m) = -(Real.pi * u * I) - m * Real.pi by ring, HubbardAtom.tan_sub_int_pi,
    tan_neg, tan_mul_I]

theorem tanh_fermi (beta x : ℝ) : Real.tanh (beta * x / 2) = 1 - 2 * fermi (x * beta) := by
  rw [C20_fermi, Real.tanh_eq_sinh_div_cosh, Real.sinh_eq, Real.cosh_eq]
  have h := Real.exp_pos (beta * x / 2)
  have e : Real.exp (x * beta) = Real.exp (beta * x / 2) * Real.exp (beta * x / 2) := by
    rw [← Real.exp_add]; congr 1; ring
  rw [e, Real.exp_neg]
  field_simp
  ring

/-- the time integral for a pair of poles -/
def pairFactor (beta : ℝ) (m : ℤ) (x y : ℝ) : ℂ :=
  ∫ t in (0 : ℝ)..beta, exp (matsubara .boson beta m * t) * (freeTau beta t x * freeTau beta (beta - t) y)

theorem boson_ne (beta : ℝ) (hb : 0 < beta) (m : ℤ) (hm : m ≠ 0) : matsubara .boson beta m ≠ 0 := by
  have h1 : (beta : ℂ) ≠ 0 := by exact_mod_cast hb.ne'
  have h2 : (Real.pi : ℂ) ≠ 0 := by exact_mod_cast Real.pi_ne_zero
  have h3 : (m : ℂ) ≠ 0 := by exact_mod_cast hm
  simp only [matsubara]
  exact mul_ne_zero I_ne_zero (div_ne_zero (mul_ne_zero (mul_ne_zero two_ne_zero h3) h2) h1)

theorem pairFactor_eq (beta : ℝ) (hb : 0 < beta) (m : ℤ) (x y : ℝ) (h : ¬ (m = 0 ∧ x = y)) :
    pairFactor beta m x y
      = ((fermi (x * beta) - fermi (y * beta) : ℝ) : ℂ) / (matsubara .boson beta m + ((y - x : ℝ) : ℂ)) := by
  unfold pairFactor
  by_cases hm : m = 0
  · have hxy : x ≠ y := fun e => h ⟨hm, e⟩
    have hp : 0 < |y - x| := abs_pos.2 (sub_ne_zero.2 (Ne.symm hxy))
    rw [freeTau_integral beta hb m |y - x| hp x y fun _ h2 => absurd h2 (lt_irrefl _)]
    simp only [totalFactor, lt_irrefl, and_false, if_false]
  · have hp : 0 < ‖matsubara .boson beta m‖ := norm_pos_iff.2 (boson_ne beta hb m hm)
    rw [freeTau_integral beta hb m _ hp x y fun h1 _ => absurd h1 (lt_irrefl _)]
    simp only [totalFactor, lt_irrefl, false_and, if_false]

theorem pairFactor_diag (beta : ℝ) (hb : 0 < beta) (x : ℝ) :
    pairFactor beta 0 x x = ((beta / (4 * Real.cosh (beta * x / 2) ^ 2) : ℝ) : ℂ) := by
  unfold pairFactor
  rw [freeTau_integral beta hb 0 1 one_pos x x fun _ _ => ⟨rfl, rfl⟩]
  simp only [totalFactor, matsubara, Int.cast_zero, mul_zero, zero_mul, zero_div, norm_zero, zero_lt_one, sub_self,
    abs_zero, and_self, if_true]
  congr 2
  rw [show (0.5 : ℝ) * beta * x = beta * x / 2 by norm_num; ring]
  ring

/-- C92: the sum over all fermionic frequencies for a pair of poles -/
theorem pole_sum (beta : ℝ) (hb : 0 < beta) (m : ℤ) (x y : ℝ) :
    HasSum (fun nu : ℤ => -(1 / ((matsubara .fermion beta nu - x) * (matsubara .fermion beta (nu + m) - y))) / beta)
      (pairFactor beta (-m) x y) := by
  have hb' : (beta : ℂ) ≠ 0 := by exact_mod_cast hb.ne'
  have hpi : (Real.pi : ℂ) ≠ 0 := by exact_mod_cast Real.pi_ne_zero
  obtain ⟨u, hu⟩ : ∃ u : ℝ, u = beta * x / (2 * Real.pi) := ⟨_, rfl⟩
  obtain ⟨v, hv⟩ : ∃ v : ℝ, v = beta * y / (2 * Real.pi) := ⟨_, rfl⟩
  have hu' : Real.pi * u = beta * x / 2 := by
    rw [hu]; field_simp [Real.pi_ne_zero]
  have hv' : Real.pi * v = beta * y / 2 := by
    rw [hv]; field_simp [Real.pi_ne_zero]
  have huc : (Real.pi : ℂ) * u = beta * x / 2 := by exact_mod_cast hu'
  have hvc : (Real.pi : ℂ) * v = beta * y / 2 := by exact_mod_cast hv'
  have e1 : ∀ nu : ℤ, matsubara .fermion beta nu - x = 2 * Real.pi * I / beta * ((1 / 2 : ℂ) + u * I + nu) := by
    intro nu
    simp only [matsubara]
    field_simp
    linear_combination (2 * huc) - (2 * Real.pi * u) * I_sq
  have e2 : ∀ nu : ℤ, matsubara .fermion beta (nu + m) - y
      = 2 * Real.pi * I / beta * ((1 / 2 : ℂ) + v * I + m + nu) := by
    intro nu
    simp only [matsubara]
    push_cast
    field_simp
    linear_combination (2 * hvc) - (2 * Real.pi * v) * I_sq
  have key : ∀ nu : ℤ, -(1 / ((matsubara .fermion beta nu - x) * (matsubara .fermion beta (nu + m) - y))) / beta
      = beta / (4 * Real.pi ^ 2) * (1 / (((1 / 2 : ℂ) + u * I + nu) * ((1 / 2 : ℂ) + v * I + m + nu))) := by
    intro nu
    rw [e1, e2]
    have h1 := Complex.integerComplement_add_ne_zero (line_mem u 0) nu
    have h2 := Complex.integerComplement_add_ne_zero (line_mem v m) nu
    rw [Int.cast_zero, add_zero] at h1
    have hI := I_ne_zero
    field_simp
    rw [I_sq]
    ring
  simp only [key]
  by_cases hc : -m = 0 ∧ x = y
  · obtain ⟨hm, rfl⟩ := hc
    have hm0 : m = 0 := by omega
    subst hm0
    have huv : v = u := by rw [hu, hv]
    subst huv
    rw [neg_zero, pairFactor_diag beta hb]
    have h := (hasSum_inv_sq_line v).mul_left ((beta : ℂ) / (4 * Real.pi ^ 2))
    have e : (beta : ℂ) / (4 * Real.pi ^ 2) * (Real.pi / cosh (Real.pi * v)) ^ 2
        = ((beta / (4 * Real.cosh (beta * x / 2) ^ 2) : ℝ) : ℂ) := by
      rw [huc]
      push_cast
      have hcosh : cosh ((beta : ℂ) * x / 2) ≠ 0 := by
        have := (Real.cosh_pos (beta * x / 2)).ne'
        have h3 : ((Real.cosh (beta * x / 2) : ℝ) : ℂ) ≠ 0 := by exact_mod_cast this
        push_cast at h3
        exact h3
      field_simp
    rw [e] at h
    refine h.congr_fun fun nu => ?_
    rw [Int.cast_zero, add_zero, pow_two ((1 / 2 : ℂ) + v * I + nu)]
  · rw [pairFactor_eq beta hb (-m) x y hc]
    obtain ⟨dz, hdz⟩ : ∃ dz : ℂ, dz = ((1 / 2 : ℂ) + v * I + m) - ((1 / 2 : ℂ) + u * I) := ⟨_, rfl⟩
    have hden : matsubara .boson beta (-m) + ((y - x : ℝ) : ℂ) = 2 * Real.pi / (I * beta) * dz := by
      rw [hdz]
      simp only [matsubara]
      push_cast
      have hI := I_ne_zero
      field_simp
      linear_combination (2 * I) * huc - (2 * I) * hvc - (2 * m * Real.pi : ℂ) * I_sq
    have hdz0 : dz ≠ 0 := by
      intro h0
      apply hc
      rw [hdz] at h0
      have hre := congrArg Complex.re h0
      have him := congrArg Complex.im h0
      simp at hre him
      refine ⟨by simpa using hre, ?_⟩
      have : u = v := by linarith
      rw [hu, hv] at this
      have hp := Real.pi_ne_zero
      field_simp at this
      exact this
    have h := (HubbardAtom.hasSum_sub_inv (line_mem u 0) (line_mem v m)).mul_left ((beta : ℂ) / (4 * Real.pi ^ 2) / dz)
    have e : (beta : ℂ) / (4 * Real.pi ^ 2) / dz * (Real.pi * cot (Real.pi * ((1 / 2 : ℂ) + u * I + (0 : ℤ)))
          - Real.pi * cot (Real.pi * ((1 / 2 : ℂ) + v * I + m)))
        = ((fermi (x * beta) - fermi (y * beta) : ℝ) : ℂ) / (matsubara .boson beta (-m) + ((y - x : ℝ) : ℂ)) := by
      rw [cot_line, cot_line, hden, huc, hvc]
      have t1 : tanh ((beta : ℂ) * x / 2) = 1 - 2 * ((fermi (x * beta) : ℝ) : ℂ) := by
        have := tanh_fermi beta x
        exact_mod_cast congrArg (fun r : ℝ => (r : ℂ)) this
      have t2 : tanh ((beta : ℂ) * y / 2) = 1 - 2 * ((fermi (y * beta) : ℝ) : ℂ) := by
        have := tanh_fermi beta y
        exact_mod_cast congrArg (fun r : ℝ => (r : ℂ)) this
      rw [t1, t2]
      push_cast
      have hI := I_ne_zero
      field_simp
      ring
    rw [e] at h
    refine h.congr_fun fun nu => ?_
    have h1 := Complex.integerComplement_add_ne_zero (line_mem u 0) nu
    have h2 := Complex.integerComplement_add_ne_zero (line_mem v m) nu
    rw [Int.cast_zero, add_zero] at h1
    simp only [Int.cast_zero, add_zero]
    have h3 : dz = ((1 / 2 : ℂ) + v * I + m + nu) - ((1 / 2 : ℂ) + u * I + nu) := by rw [hdz]; ring
    rw [div_sub_div _ _ h1 h2]
    rw [show (1 : ℂ) * ((1 / 2 : ℂ) + v * I + m + nu) - ((1 / 2 : ℂ) + u * I + nu) * 1 = dz by rw [h3]; ring]
    field_simp

/-! ## The two routes -/

/-- the imaginary time route: the bubble of `chi0_tr_from_grt_PH`, transformed to momentum and to the bosonic
frequency `m` -/
def imtimeRoute (ranks : ℕ) (beta : ℝ) (rmesh : List (Lat n)) (p : Poles n o) (m : ℤ) (q : Lat n) : T4 o :=
  fun a b c d => ∫ t in (0 : ℝ)..beta, exp (matsubara .boson beta m * t)
    * rToK (fun r => chi0trDlr ranks beta rmesh (p.timeR beta) r t a b c d) q

/-- the imaginary frequency route with the fermionic frequencies of a finite window -/
def imfreqRoute (ranks : ℕ) (beta : ℝ) (mesh : List (ℤ × Lat n)) (p : Poles n o) (S : Finset ℤ) (m : ℤ) (q : Lat n) :
    T4 o :=
  Bse.chi0qSumNu (ν := S) ranks (beta : ℂ) mesh
    (fun w nu k => chi0nFromGwk (beta : ℂ) (p.freq beta) w k nu.1) (m, q)

/-- closed form of the imaginary time route -/
theorem imtimeRoute_eq {ranks : ℕ} (hr : 0 < ranks) (beta : ℝ) {rmesh : List (Lat n)} (hnd : rmesh.Nodup)
    (hall : ∀ r, r ∈ rmesh) (p : Poles n o) (m : ℤ) (q : Lat n) (a b c e : o) :
    imtimeRoute ranks beta rmesh p m q a b c e = (Fintype.card (Lat n) : ℂ)⁻¹ *
      ∑ k, ∑ l, ∑ l', p.res k l e a * p.res (k - q) l' b c * pairFactor beta m (p.eps k l) (p.eps (k - q) l') := by
  have h1 : ∀ t, rToK (fun r => chi0trDlr ranks beta rmesh (p.timeR beta) r t a b c e) q
      = (Fintype.card (Lat n) : ℂ)⁻¹ * ∑ k, p.time beta t k e a * p.time beta (beta - t) (k - q) b c := by
    intro t
    have h2 : ∀ r, chi0trDlr ranks beta rmesh (p.timeR beta) r t a b c e
        = kToR (fun k => p.time beta t k e a) r * kToR (fun k => p.time beta (beta - t) k b c) (-r) := by
      intro r
      have h := C02_distributedAssign ranks hr rmesh hnd (fun r => chi0tDlrPoint beta (p.timeR beta) r) r
      rw [chi0trDlr, h, if_pos (hall r)]
      rfl
    simp only [h2]
    rw [rToK_product, div_eq_inv_mul]
  unfold imtimeRoute
  simp only [h1, Poles.time]
  have h3 : ∀ t : ℝ, exp (matsubara .boson beta m * t) * ((Fintype.card (Lat n) : ℂ)⁻¹ *
        ∑ k, (∑ l, p.res k l e a * freeTau beta t (p.eps k l))
          * ∑ l', p.res (k - q) l' b c * freeTau beta (beta - t) (p.eps (k - q) l'))
      = ∑ k, ∑ l, ∑ l', ((Fintype.card (Lat n) : ℂ)⁻¹ * (p.res k l e a * p.res (k - q) l' b c))
        * (exp (matsubara .boson beta m * t) * (freeTau beta t (p.eps k l)
          * freeTau beta (beta - t) (p.eps (k - q) l'))) := by
    intro t
    simp only [Finset.mul_sum, Finset.sum_mul]
    refine Finset.sum_congr rfl fun k _ => ?_
    rw [Finset.sum_comm]
    refine Finset.sum_congr rfl fun l _ => Finset.sum_congr rfl fun l' _ => ?_
    ring
  simp only [h3]
  have hcont : ∀ (z : ℂ) (x y : ℝ), Continuous fun t : ℝ => z * (exp (matsubara .boson beta m * t)
      * (freeTau beta t x * freeTau beta (beta - t) y)) := by
    intro z x y
    unfold freeTau
    fun_prop
  rw [intervalIntegral.integral_finsetSum]
  swap
  · intro k _
    exact (continuous_finsetSum _ fun l _ => continuous_finsetSum _ fun l' _ => hcont _ _ _).intervalIntegrable _ _
  rw [Finset.mul_sum]
  refine Finset.sum_congr rfl fun k _ => ?_
  rw [intervalIntegral.integral_finsetSum]
  swap
  · intro l _
    exact (continuous_finsetSum _ fun l' _ => hcont _ _ _).intervalIntegrable _ _
  rw [Finset.mul_sum]
  refine Finset.sum_congr rfl fun l _ => ?_
  rw [intervalIntegral.integral_finsetSum]
  swap
  · intro l' _
    exact (hcont _ _ _).intervalIntegrable _ _
  rw [Finset.mul_sum]
  refine Finset.sum_congr rfl fun l' _ => ?_
  rw [intervalIntegral.integral_const_mul, pairFactor]
  ring

/-- C92: the imaginary frequency route converges to the imaginary time route at the opposite bosonic frequency. -/
theorem C92_routes_partial {ranks ranks' : ℕ} (hr : 0 < ranks) (hr' : 0 < ranks') (beta : ℝ) (hb : 0 < beta)
    {rmesh : List (Lat n)} (hnd : rmesh.Nodup) (hall : ∀ r, r ∈ rmesh) {mesh : List (ℤ × Lat n)} (hnd' : mesh.Nodup)
    (p : Poles n o) (m : ℤ) (q : Lat n) (hm : (m, q) ∈ mesh) (a b c e : o) :
    Filter.Tendsto (fun S : Finset ℤ => imfreqRoute ranks beta mesh p S m q a b c e) Filter.atTop
      (nhds (imtimeRoute ranks' beta rmesh p (-m) q a b c e)) := by
  have hb' : (beta : ℂ) ≠ 0 := by exact_mod_cast hb.ne'
  rw [imtimeRoute_eq hr' beta hnd hall]
  have h1 : ∀ S : Finset ℤ, imfreqRoute ranks beta mesh p S m q a b c e
      = ∑ nu ∈ S, (Fintype.card (Lat n) : ℂ)⁻¹ * ∑ k, ∑ l, ∑ l', p.res k l e a * p.res (k - q) l' b c
        * (-(1 / ((matsubara .fermion beta nu - p.eps k l) * (matsubara .fermion beta (nu + m) - p.eps (k - q) l')))
          / beta) := by
    intro S
    have h := C02_distributedAssign ranks hr mesh hnd' (fun w : ℤ × Lat n => fun a b c d =>
      (∑ nu : S, chi0nFromGwk (beta : ℂ) (p.freq beta) w.1 w.2 nu.1 a b c d) / ((beta : ℂ) * beta)) (m, q)
    rw [imfreqRoute, Bse.chi0qSumNu, h, if_pos hm]
    rw [Finset.sum_coe_sort S (fun nu => chi0nFromGwk (beta : ℂ) (p.freq beta) m q nu a b c e), Finset.sum_div]
    refine Finset.sum_congr rfl fun nu _ => ?_
    rw [chi0nFromGwk, Finset.sum_mul, Finset.sum_div, Finset.mul_sum]
    refine Finset.sum_congr rfl fun k _ => ?_
    simp only [Poles.freq, Finset.mul_sum, Finset.sum_mul, ← Finset.sum_neg_distrib, Finset.sum_div]
    rw [Finset.sum_comm]
    refine Finset.sum_congr rfl fun l _ => Finset.sum_congr rfl fun l' _ => ?_
    have h2 := fermion_ne beta hb nu (p.eps k l)
    have h3 := fermion_ne beta hb (nu + m) (p.eps (k - q) l')
    have h4 := card_ne_zero' (n := n)
    field_simp
  simp only [h1]
  exact HasSum.mul_left _ (hasSum_sum fun k _ => hasSum_sum fun l _ => hasSum_sum fun l' _ =>
    (pole_sum beta hb m _ _).mul_left _)

/-- C92: at zero frequency the two routes agree. -/
theorem C92_static {ranks ranks' : ℕ} (hr : 0 < ranks) (hr' : 0 < ranks') (beta : ℝ) (hb : 0 < beta)
    {rmesh : List (Lat n)} (hnd : rmesh.Nodup) (hall : ∀ r, r ∈ rmesh) {mesh : List (ℤ × Lat n)} (hnd' : mesh.Nodup)
    (p : Poles n o) (q : Lat n) (hm : (0, q) ∈ mesh) (a b c e : o) :
    Filter.Tendsto (fun S : Finset ℤ => imfreqRoute ranks beta mesh p S 0 q a b c e) Filter.atTop
      (nhds (imtimeRoute ranks' beta rmesh p 0 q a b c e)) := by
  have h := C92_routes_partial hr hr' beta hb hnd hall hnd' p 0 q hm a b c e
  rwa [neg_zero] at h

theorem matsubara_boson_neg (beta : ℝ) (m : ℤ) : matsubara .boson beta (-m) = -matsubara .boson beta m := by
  simp only [matsubara]; push_cast; ring

theorem pairFactor_swap (beta : ℝ) (hb : 0 < beta) (m : ℤ) (x y : ℝ) :
    pairFactor beta (-m) x y = pairFactor beta m y x := by
  by_cases h : m = 0 ∧ x = y
  · obtain ⟨rfl, rfl⟩ := h
    rw [neg_zero]
  · rw [pairFactor_eq beta hb (-m) x y fun h' => h ⟨by omega, h'.2⟩,
      pairFactor_eq beta hb m y x fun h' => h ⟨h'.1, h'.2.symm⟩, matsubara_boson_neg]
    rw [← neg_div_neg_eq]
    congr 1 <;> push_cast <;> ring

/-- C92: reversing the frequency exchanges the two Green's functions. -/
theorem C92_reversal {ranks : ℕ} (hr : 0 < ranks) (beta : ℝ) (hb : 0 < beta) {rmesh : List (Lat n)}
    (hnd : rmesh.Nodup) (hall : ∀ r, r ∈ rmesh) (p : Poles n o) (m : ℤ) (q : Lat n) (a b c e : o) :
    imtimeRoute ranks beta rmesh p (-m) q a b c e = imtimeRoute ranks beta rmesh p m (-q) c e a b := by
  rw [imtimeRoute_eq hr beta hnd hall, imtimeRoute_eq hr beta hnd hall]
  congr 1
  rw [← Equiv.sum_comp (Equiv.addRight q)]
  refine Finset.sum_congr rfl fun k _ => ?_
  rw [Finset.sum_comm]
  simp only [Equiv.coe_addRight, add_sub_cancel_right, sub_neg_eq_add]
  refine Finset.sum_congr rfl fun l _ => Finset.sum_congr rfl fun l' _ => ?_
  rw [pairFactor_swap beta hb]
  ring

/-- time reversal symmetry in momentum space: `G(k) = G(-k)ᵀ` -/
def Poles.Reversible (p : Poles n o) : Prop :=
  ∀ k l a b, p.eps (-k) l = p.eps k l ∧ p.res (-k) l a b = p.res k l b a

/-- C92: for time reversal symmetric systems the reversal of the frequency only exchanges orbitals. -/
theorem C92_reversible {ranks : ℕ} (hr : 0 < ranks) (beta : ℝ) (hb : 0 < beta) {rmesh : List (Lat n)}
    (hnd : rmesh.Nodup) (hall : ∀ r, r ∈ rmesh) (p : Poles n o) (hp : p.Reversible) (m : ℤ) (q : Lat n)
    (a b c e : o) :
    imtimeRoute ranks beta rmesh p (-m) q a b c e = imtimeRoute ranks beta rmesh p m q b a e c := by
  rw [C92_reversal hr beta hb hnd hall, imtimeRoute_eq hr beta hnd hall, imtimeRoute_eq hr beta hnd hall]
  congr 1
  rw [← Equiv.sum_comp (Equiv.neg (Lat n))]
  refine Finset.sum_congr rfl fun k _ => Finset.sum_congr rfl fun l _ => Finset.sum_congr rfl fun l' _ => ?_
  have h1 : (Equiv.neg (Lat n)) k = -k := rfl
  have h2 : -k - -q = -(k - q) := by abel
  rw [h1, h2, (hp k l b c).1, (hp (k - q) l' e a).1, (hp k l b c).2, (hp (k - q) l' e a).2]

/-- C92: for time reversal symmetric systems the two routes agree at all frequencies for the components that couple
densities. -/
theorem C92_density {ranks ranks' : ℕ} (hr : 0 < ranks) (hr' : 0 < ranks') (beta : ℝ) (hb : 0 < beta)
    {rmesh : List (Lat n)} (hnd : rmesh.Nodup) (hall : ∀ r, r ∈ rmesh) {mesh : List (ℤ × Lat n)} (hnd' : mesh.Nodup)
    (p : Poles n o) (hp : p.Reversible) (m : ℤ) (q : Lat n) (hm : (m, q) ∈ mesh) (a c : o) :
    Filter.Tendsto (fun S : Finset ℤ => imfreqRoute ranks beta mesh p S m q a a c c) Filter.atTop
      (nhds (imtimeRoute ranks' beta rmesh p m q a a c c)) := by
  have h := C92_routes_partial hr hr' beta hb hnd hall hnd' p m q hm a a c c
  rwa [C92_reversible hr' beta hb hnd hall p hp] at h

/-- poles of the non-interacting Green's function: the bands -/
def Poles.bands (eig : Eig o) (mu : ℝ) (e : Lat n → Matrix o o ℂ) : Poles n o where
  L := o
  eps k l := (sys eig mu e k).1 l
  res k l a b := (sys eig mu e k).2 a l * (sys eig mu e k).2.conjTranspose l b

theorem bands_route {ranks : ℕ} (hr : 0 < ranks) (eig : Eig o) (beta mu : ℝ) {rmesh : List (Lat n)}
    (hnd : rmesh.Nodup) (hall : ∀ r, r ∈ rmesh) (e : Lat n → Matrix o o ℂ) (m : ℤ) (q : Lat n) (a b c f : o) :
    imtimeRoute ranks beta rmesh (Poles.bands eig mu e) m q a b c f
      = ∫ t in (0 : ℝ)..beta, exp (matsubara .boson beta m * t) * bubbleTauK eig beta mu e t q a b c f := by
  unfold imtimeRoute
  congr 1
  funext t
  congr 1
  unfold bubbleTauK
  congr 1
  funext r
  have h := C02_distributedAssign ranks hr rmesh hnd
    (fun r => chi0tDlrPoint beta ((Poles.bands eig mu e).timeR beta) r) r
  rw [chi0trDlr, h, if_pos (hall r), chi0tDlrPoint, Poles.timeR, Poles.timeR]
  have h2 : ∀ t k i j, (Poles.bands eig mu e).time beta t k i j
      = matFun (sys eig mu e k) (freeTau beta t) i j := by
    intro t k i j
    rw [matFun_apply]
    refine Finset.sum_congr rfl fun l _ => ?_
    simp only [Poles.bands]
    exact mul_right_comm _ _ _
  simp only [h2]

/-- C92: the imaginary frequency route of a non-interacting system with time reversal symmetry converges to the
Lindhard function at the opposite frequency. -/
theorem C92_lindhard_partial {ranks ranks' : ℕ} (hr : 0 < ranks) (hr' : 0 < ranks') (eig : Eig o) (hs : EigSpec eig)
    (tol beta mu : ℝ) (hb : 0 < beta) (ht : 0 < tol) (kmesh : List (Lat n)) (hnd : kmesh.Nodup)
    (hall : ∀ k, k ∈ kmesh) (e : Lat n → Matrix o o ℂ) (he : ∀ k, (e k).IsHermitian)
    (htr : TimeReversal e) {mesh : List (ℤ × Lat n)} (hnd' : mesh.Nodup) (m : ℤ)
    (htolm : ‖matsubara .boson beta (-m)‖ < tol → -m = 0) (q : Lat n) (hm : (m, q) ∈ mesh) (a b c f : o)
    (hsep : ∀ k k' i j, |(sys eig mu e k').1 j - (sys eig mu e k).1 i| < tol →
      (sys eig mu e k').1 j = (sys eig mu e k).1 i) :
    Filter.Tendsto (fun S : Finset ℤ => imfreqRoute ranks beta mesh (Poles.bands eig mu e) S m q a b c f)
      Filter.atTop
      (nhds (lindhard ranks' eig tol beta mu kmesh e (matsubara .boson beta (-m)) q a b c f)) := by
  rw [C21_equals_imaginary_time_bubble_partial ranks' hr' eig hs tol beta mu hb ht kmesh hnd hall e he htr (-m) htolm
    q a b c f hsep, ← bands_route hr' eig beta mu hnd hall]
  exact C92_routes_partial hr hr' beta hb hnd hall hnd' _ m q hm a b c f

/-- an atom with two levels -/
def twoLevels (x y : ℝ) : Poles (fun _ : Fin 1 => 1) (Fin 2) where
  L := Fin 2
  eps _ l := if l = 0 then x else y
  res _ l a b := if a = l ∧ b = l then 1 else 0

theorem twoLevels_reversible (x y : ℝ) : (twoLevels x y).Reversible := by
  intro k (l : Fin 2) a b
  refine ⟨rfl, ?_⟩
  change (if a = (l : Fin 2) ∧ b = l then (1 : ℂ) else 0) = if b = (l : Fin 2) ∧ a = l then (1 : ℂ) else 0
  exact if_congr and_comm rfl rfl

theorem twoLevels_route {ranks : ℕ} (hr : 0 < ranks) (beta : ℝ) {rmesh : List (Lat (fun _ : Fin 1 => 1))}
    (hnd : rmesh.Nodup) (hall : ∀ r, r ∈ rmesh) (x y : ℝ) (m : ℤ) :
    imtimeRoute ranks beta rmesh (twoLevels x y) m 0 0 1 1 0 = pairFactor beta m x y := by
  rw [imtimeRoute_eq hr beta hnd hall]
  have h1 : Fintype.card (Lat (fun _ : Fin 1 => 1)) = 1 := by rfl
  have h2 : (Finset.univ : Finset (Lat (fun _ : Fin 1 => 1))) = {0} := by
    ext r
    simp only [Finset.mem_univ, Finset.mem_singleton, true_iff]
    exact Subsingleton.elim _ _
  rw [h1, h2, Finset.sum_singleton]
  change ((1 : ℕ) : ℂ)⁻¹ * ∑ l : Fin 2, ∑ l' : Fin 2, (if (0 : Fin 2) = l ∧ (0 : Fin 2) = l then (1 : ℂ) else 0)
    * (if (1 : Fin 2) = l' ∧ (1 : Fin 2) = l' then (1 : ℂ) else 0)
    * pairFactor beta m (if l = 0 then x else y) (if l' = 0 then x else y) = _
  rw [Fin.sum_univ_two, Fin.sum_univ_two, Fin.sum_univ_two]
  simp

/-- C92: the value of the two routes for the two level atom: they differ at every frequency but zero, although the
system is time reversal symmetric. -/
theorem C92_frequency_violated {ranks ranks' : ℕ} (hr : 0 < ranks) (hr' : 0 < ranks') (beta : ℝ) (hb : 0 < beta)
    {rmesh : List (Lat (fun _ : Fin 1 => 1))} (hnd : rmesh.Nodup) (hall : ∀ r, r ∈ rmesh)
    {mesh : List (ℤ × Lat (fun _ : Fin 1 => 1))} (hnd' : mesh.Nodup) (x y : ℝ) (hxy : x ≠ y) (m : ℤ) (hm0 : m ≠ 0)
    (hm : (m, 0) ∈ mesh) :
    ¬ Filter.Tendsto (fun S : Finset ℤ => imfreqRoute ranks beta mesh (twoLevels x y) S m 0 0 1 1 0) Filter.atTop
      (nhds (imtimeRoute ranks' beta rmesh (twoLevels x y) m 0 0 1 1 0)) := by
  intro hcon
  have h := tendsto_nhds_unique hcon
    (C92_routes_partial hr hr' beta hb hnd hall hnd' (twoLevels x y) m 0 hm 0 1 1 0)
  rw [twoLevels_route hr' beta hnd hall, twoLevels_route hr' beta hnd hall,
    pairFactor_eq beta hb m x y fun h' => hm0 h'.1, pairFactor_eq beta hb (-m) x y fun h' => hm0 (by omega),
    matsubara_boson_neg] at h
  have hz := boson_ne beta hb m hm0
  have hre : (matsubara .boson beta m).re = 0 := by
    rw [show matsubara .boson beta m = ((2 * m * Real.pi / beta : ℝ) : ℂ) * I by
      simp only [matsubara]; push_cast; ring]
    rw [Complex.re_ofReal_mul, I_re, mul_zero]
  have hf : ((fermi (x * beta) - fermi (y * beta) : ℝ) : ℂ) ≠ 0 := by
    have : fermi (x * beta) ≠ fermi (y * beta) := fun h' =>
      hxy (mul_right_cancel₀ hb.ne' (C20_fermi_strictAnti.injective h'))
    exact_mod_cast sub_ne_zero.2 this
  have hd : ∀ z : ℂ, z.re = 0 → z + ((y - x : ℝ) : ℂ) ≠ 0 := by
    intro z hz0 h0
    have := congrArg Complex.re h0
    rw [add_re, hz0, ofReal_re, zero_re, zero_add, sub_eq_zero] at this
    exact hxy this.symm
  rw [div_eq_div_iff (hd _ hre) (hd _ (by rw [neg_re, hre, neg_zero]))] at h
  have h5 := mul_left_cancel₀ hf h
  apply hz
  linear_combination (-1 / 2 : ℂ) * h5

/-- the hypotheses are met: one time reversal symmetric atom, one process, the frequencies `0` and `1` -/
example : (twoLevels 0 1).Reversible ∧ ([0] : List (Lat (fun _ : Fin 1 => 1))).Nodup ∧
    (∀ r, r ∈ ([0] : List (Lat (fun _ : Fin 1 => 1)))) ∧
    ((1, 0) : ℤ × Lat (fun _ : Fin 1 => 1)) ∈ ([(0, 0), (1, 0)] : List (ℤ × Lat (fun _ : Fin 1 => 1))) :=
  ⟨twoLevels_reversible 0 1, by simp, fun r => by rw [List.mem_singleton]; exact Subsingleton.elim _ _, by simp⟩

/-! ## Memory saving version -/

/-- `chi0_wr_from_grt_PH`, `/repo/c++/triqs_tprf/lattice/chi_imtime.cpp:139-182`: the bubble of a lattice vector is
transformed (`four`, `make_gf_from_fourier`) before the next one is computed; `W` is the mesh of frequencies. -/
def chi0wrSaving {τ W : Type} (ranks : ℕ) (rmesh : List (Lat n)) (beta : τ → τ) (four : (τ → T4 o) → W → T4 o)
    (g : τ → Lat n → o → o → ℂ) : Lat n → W → T4 o :=
  distributedAssign ranks rmesh fun r => four fun t => fun a b c d => g t r d a * g (beta t) (-r) b c

/-- C92: the memory saving version is the bubble in time followed by the transform. -/
theorem C92_save_memory {τ W : Type} {ranks ranks' : ℕ} (hr : 0 < ranks) (hr' : 0 < ranks') {rmesh : List (Lat n)}
    (hnd : rmesh.Nodup) (hall : ∀ r, r ∈ rmesh) (beta : τ → τ) (four : (τ → T4 o) → W → T4 o)
    (g : τ → Lat n → o → o → ℂ) (r : Lat n) :
    chi0wrSaving ranks rmesh beta four g r = four (chi0wrSaving (W := τ) ranks' rmesh beta id g r) := by
  have h1 := C02_distributedAssign ranks hr rmesh hnd
    (fun r => four fun t => fun a b c d => g t r d a * g (beta t) (-r) b c) r
  have h2 := C02_distributedAssign ranks' hr' rmesh hnd
    (fun r => id fun t => fun a b c d => g t r d a * g (beta t) (-r) b c) r
  rw [chi0wrSaving, chi0wrSaving, h1, h2, if_pos (hall r), if_pos (hall r), id]

end Verif.Bubble
