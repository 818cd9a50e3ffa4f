import Verif.Unique.Iter
import Verif.Mirror.Examples

/-!
# C132: the Hubbard site
-/

set_option linter.unusedSectionVars false

noncomputable section

namespace Verif.Unique

open Complex Matrix Verif.HartreeFock Verif.HfResponse Verif.Subsystem Verif.Mirror.Examples

/-- the mean field of a Hubbard site is the field of the other spin -/
theorem hubbard_field (u : ℝ) (D : Matrix (Fin 2) (Fin 2) ℂ) :
    meanField (hubbard u) D = !![u * D 1 1, -u * D 0 1; -u * D 1 0, u * D 0 0] := by
  ext b a
  unfold meanField hubbard
  fin_cases a <;> fin_cases b <;> simp [Fin.sum_univ_two]

theorem hubbard_bounded (u : ℝ) : Bounded (hubbard u) |u| := by
  refine ⟨abs_nonneg u, fun D hD => ?_⟩
  have h : ∀ i j, (starRingEnd ℂ) (D i j) = D j i := fun i j => by
    have := congrFun (congrFun hD j) i
    rwa [Matrix.conjTranspose_apply] at this
  constructor
  · rw [hubbard_field]
    ext i j
    rw [Matrix.conjTranspose_apply, ← starRingEnd_apply]
    fin_cases i <;> fin_cases j <;> simp [h]
  · have e : size2 (meanField (hubbard u) D) = |u| ^ 2 * size2 D := by
      rw [hubbard_field]
      unfold size2
      simp [Fin.sum_univ_two, mul_pow]
      ring
    refine le_of_eq ?_
    unfold size
    rw [e, Real.sqrt_mul (sq_nonneg _), Real.sqrt_sq (abs_nonneg u)]

/-- a Hubbard site, at any filling and with any level, has one solution as long as `beta U < 4` -/
example (beta u : ℝ) (hb : 0 < beta) (h : beta * |u| < 4) (ek : Unit → Matrix (Fin 2) (Fin 2) ℂ) (he : ∀ k, (ek k).IsHermitian)
    (N : ℝ) (h0 : 0 < N) (h2 : N < 2) :
    ∃! x : Matrix (Fin 2) (Fin 2) ℂ × ℝ, x.1.IsHermitian ∧ Matrix.trace x.1 = (N : ℂ) ∧ Solution (hubbard u) beta x.2 ek x.1 :=
  C132_exists_number hb (hubbard_bounded u) (by linarith) he h0 h2

/-- a moment `m` on a half filled site -/
def moment (m : ℝ) : Matrix (Fin 2) (Fin 2) ℂ :=
  Matrix.diagonal fun i => ((if i = 0 then (1 + m) / 2 else (1 - m) / 2 : ℝ) : ℂ)

theorem moment_hermitian (m : ℝ) : (moment m).IsHermitian := by
  unfold moment Matrix.IsHermitian
  rw [Matrix.diagonal_conjTranspose]
  congr 1
  funext i
  simp

theorem moment_trace (m : ℝ) : Matrix.trace (moment m) = 1 := by
  unfold moment
  rw [Matrix.trace_diagonal, Fin.sum_univ_two]
  simp
  ring

theorem fermi_flip (beta e : ℝ) : fermi beta (-e) = 1 - fermi beta e := by
  unfold fermi
  rw [mul_neg, Real.exp_neg]
  have := Real.exp_pos (beta * e)
  field_simp
  ring

theorem moment_solution {beta u m : ℝ} (h : fermi beta (-(u * m / 2)) = (1 + m) / 2) :
    Solution (hubbard u) beta 0 (site u) (moment m) := by
  have e : ∀ k, site u k + meanField (hubbard u) (moment m) - ((0 : ℝ) : ℂ) • 1
      = Matrix.diagonal fun i => ((if i = 0 then -(u * m / 2) else u * m / 2 : ℝ) : ℂ) := by
    intro k
    rw [hubbard_field]
    unfold site moment
    ext i j
    fin_cases i <;> fin_cases j <;> simp <;> ring
  unfold Solution thermalDensity
  simp only [e, fermiMatrix_diagonal]
  simp only [Finset.univ_unique, Finset.sum_singleton, Fintype.card_unique, Nat.cast_one, inv_one, one_smul]
  unfold moment
  congr 1
  funext i
  have h' : fermi beta (u * m / 2) = (1 - m) / 2 := by
    have := fermi_flip beta (u * m / 2)
    linarith
  split_ifs
  · rw [h]
  · rw [h']

/-- C132, the bound is sharp: as soon as `beta U > 4` the half filled Hubbard site has several solutions at the same chemical potential
and with the same number of particles, and what a driver reports depends on where it starts. -/
theorem C132_sharp {beta u : ℝ} (hb : 0 < beta) (hu : 4 < beta * u) :
    ∃ m, 0 < m ∧ m < 1 ∧ ∀ x ∈ ({m, 0, -m} : Set ℝ), (moment x).IsHermitian ∧ Matrix.trace (moment x) = 1 ∧
      Solution (hubbard u) beta 0 (site u) (moment x) := by
  have hu0 : 0 < u := by
    by_contra h
    have := mul_nonpos_of_nonneg_of_nonpos hb.le (not_lt.1 h)
    linarith
  set a := beta * u / 4 with ha
  have ha1 : 1 < a := by rw [ha]; linarith
  have hcont : Continuous fun m : ℝ => fermi beta (-(u * m / 2)) - (1 + m) / 2 := by
    unfold fermi
    refine Continuous.sub (Continuous.div continuous_const (by fun_prop) fun m => ?_) (by fun_prop)
    positivity
  have h1 : fermi beta (-(u * 1 / 2)) - (1 + 1) / 2 ≤ 0 := by
    have : fermi beta (-(u * 1 / 2)) ≤ 1 := by
      unfold fermi
      rw [div_le_one (by positivity)]
      have := Real.exp_pos (beta * -(u * 1 / 2))
      linarith
    linarith
  set m0 := (a - 1) / (2 * a) with hm0
  have hm0p : 0 < m0 := div_pos (by linarith) (by linarith)
  have hm01 : m0 ≤ 1 := by
    rw [hm0, div_le_one (by linarith)]
    linarith
  have h0 : 0 ≤ fermi beta (-(u * m0 / 2)) - (1 + m0) / 2 := by
    have ex : beta * -(u * m0 / 2) = -(a - 1) := by
      have : beta * u = 4 * a := by rw [ha]; ring
      have : beta * -(u * m0 / 2) = -(4 * a * m0 / 2) := by rw [← this]; ring
      rw [this, hm0]
      field_simp
      ring
    unfold fermi
    rw [ex, Real.exp_neg]
    have he : a ≤ Real.exp (a - 1) := by
      have := Real.add_one_le_exp (a - 1)
      linarith
    have he' : (Real.exp (a - 1))⁻¹ ≤ a⁻¹ := inv_anti₀ (by linarith) he
    have h2 : 1 / (a⁻¹ + 1) ≤ 1 / ((Real.exp (a - 1))⁻¹ + 1) := one_div_le_one_div_of_le (by positivity) (by linarith)
    have h3 : (1 + m0) / 2 ≤ 1 / (a⁻¹ + 1) := by
      rw [hm0, show 1 / (a⁻¹ + 1) = a / (1 + a) by field_simp, show (1 + (a - 1) / (2 * a)) / 2 = (3 * a - 1) / (4 * a) by field_simp; ring,
        div_le_div_iff₀ (by linarith) (by linarith)]
      nlinarith [sq_nonneg (a - 1)]
    linarith
  obtain ⟨m, hm, hmz⟩ := intermediate_value_Icc' hm01 hcont.continuousOn ⟨h1, h0⟩
  have hmz' : fermi beta (-(u * m / 2)) = (1 + m) / 2 := by
    have : fermi beta (-(u * m / 2)) - (1 + m) / 2 = 0 := hmz
    linarith
  have hf1 : fermi beta (-(u * m / 2)) < 1 := by
    unfold fermi
    rw [div_lt_one (by positivity)]
    have := Real.exp_pos (beta * -(u * m / 2))
    linarith
  refine ⟨m, lt_of_lt_of_le hm0p hm.1, by linarith, fun x hx => ⟨moment_hermitian x, moment_trace x, moment_solution ?_⟩⟩
  rcases hx with rfl | rfl | rfl
  · exact hmz'
  · simp [fermi]
    norm_num
  · have := fermi_flip beta (u * m / 2)
    rw [mul_neg, neg_div, neg_neg]
    linarith

example {beta u : ℝ} (hb : 0 < beta) (hu : 4 < beta * u) : ¬ Weak (hubbard u) beta := by
  intro hw
  obtain ⟨m, h0, -, h⟩ := C132_sharp hb hu
  have hh : ∀ x : ℝ, ∀ k, (site u k + meanField (hubbard u) (moment x)).IsHermitian := fun x k =>
    Matrix.IsHermitian.add (by
      unfold site Matrix.IsHermitian
      rw [Matrix.diagonal_conjTranspose]
      congr 1
      funext i
      simp) ((hubbard_bounded u).2 _ (moment_hermitian x)).1
  have := (C132_unique hb hw (hh m) (hh 0) (h m (by simp)).2.2 (h 0 (by simp)).2.2 (Or.inl rfl)).1
  have := congrFun (congrFun this 0) 0
  simp [moment] at this
  have h3 : ((m : ℝ) : ℂ) = 0 := by linear_combination 2 * this
  exact h0.ne' (by exact_mod_cast h3)

/-! ## The vectors of the solver -/

/-- `mat2vec`, `vec2mat` of two orbitals (hf_solver.py:464-502): diagonal, real and imaginary part above it -/
def twoParams (eig : Lindhard.Eig (Fin 2)) (brentq : Brentq) : Params 2 (Fin 1) (Fin 4 → ℝ) :=
  { beta := 1, muMin := none, muMax := none, ek := fun _ => 0, U := hubbard 1,
    mat2vec := fun m => ![(m 0 0).re, (m 1 1).re, (m 0 1).re, (m 0 1).im],
    vec2mat := fun v => !![(v 0 : ℂ), v 2 + v 3 * I; v 2 - v 3 * I, v 1], eigv := eig, eig := eig, brentq := brentq }

/-- `np.linalg.norm` of a vector -/
def two (v : Fin 4 → ℝ) : ℝ := Real.sqrt (∑ i, v i ^ 2)

theorem two_size2 (eig : Lindhard.Eig (Fin 2)) (brentq : Brentq) (v : Fin 4 → ℝ) :
    size2 ((twoParams eig brentq).vec2mat v) = v 0 ^ 2 + v 1 ^ 2 + 2 * (v 2 ^ 2 + v 3 ^ 2) := by
  have h : ∀ a b : ℝ, ‖(a : ℂ) + b * I‖ ^ 2 = a ^ 2 + b ^ 2 := fun a b => by
    rw [← Complex.normSq_eq_norm_sq, Complex.normSq_add_mul_I]
  have h' : ∀ a b : ℝ, ‖(a : ℂ) - b * I‖ ^ 2 = a ^ 2 + b ^ 2 := fun a b => by
    have := h a (-b)
    push_cast at this
    rw [neg_mul, ← sub_eq_add_neg] at this
    rw [this]
    ring
  unfold size2 twoParams
  simp [Fin.sum_univ_two, h, h']
  ring

theorem two_vec (eig : Lindhard.Eig (Fin 2)) (brentq : Brentq) : VecOk (twoParams eig brentq) two (Real.sqrt 2)⁻¹ 1 := by
  have hsz := two_size2 eig brentq
  refine ⟨fun v => ?_, fun a b v w => ?_, fun X hX => ?_, by positivity, fun v => ?_, fun v => ?_⟩
  · ext i j
    rw [Matrix.conjTranspose_apply, ← starRingEnd_apply]
    fin_cases i <;> fin_cases j <;> simp [twoParams, sub_eq_add_neg]
  · ext i j
    fin_cases i <;> fin_cases j <;> simp [twoParams] <;> ring
  · have h : ∀ i j, (starRingEnd ℂ) (X i j) = X j i := fun i j => by
      have := congrFun (congrFun hX j) i
      rwa [Matrix.conjTranspose_apply] at this
    have hd : ∀ i, (((X i i).re : ℝ) : ℂ) = X i i := fun i => Complex.conj_eq_iff_re.1 (h i i)
    ext i j
    fin_cases i <;> fin_cases j
    · simp [twoParams, hd]
    · simp [twoParams, Complex.re_add_im]
    · rw [show X ⟨1, by decide⟩ ⟨0, by decide⟩ = (starRingEnd ℂ) (X 0 1) from (h 0 1).symm]
      simp [twoParams, Complex.ext_iff]
    · simp [twoParams, hd]
  · unfold size two
    rw [hsz, ← Real.sqrt_inv, ← Real.sqrt_mul (by norm_num)]
    refine Real.sqrt_le_sqrt ?_
    rw [Fin.sum_univ_four]
    nlinarith [sq_nonneg (v 0), sq_nonneg (v 1)]
  · unfold size two
    rw [hsz, one_mul]
    refine Real.sqrt_le_sqrt ?_
    rw [Fin.sum_univ_four]
    nlinarith [sq_nonneg (v 2), sq_nonneg (v 3)]

theorem two_weak {eig : Lindhard.Eig (Fin 2)} (hs : Lindhard.EigSpec eig) {brentq : Brentq} (hbr : BrentSpec 0 0 brentq) :
    WeakSolver (twoParams eig brentq) 1 :=
  ⟨one_pos, hs, hs, hbr, fun _ => Matrix.isHermitian_zero, by simpa [twoParams] using hubbard_bounded 1, by norm_num [twoParams]⟩

theorem two_density {eig : Lindhard.Eig (Fin 2)} (hs : Lindhard.EigSpec eig) (brentq : Brentq) (s : State 2 (Fin 1)) (e : ℝ)
    (hflat : ∀ k, s.ekMF k = (e : ℂ) • 1) : (updateDensity (twoParams eig brentq) s).rho = (fermi 1 (e - s.mu) : ℂ) • 1 := by
  have hh : ∀ k, (s.ekMF k).IsHermitian := fun k => by
    rw [hflat k]; simp [Matrix.IsHermitian, Matrix.conjTranspose_smul]
  have h1 : (updateDensity (twoParams eig brentq) s).rho = thermalDensity 1 s.ekMF s.mu := density_eq 1 s.mu hs s.ekMF hh
  rw [h1, thermalDensity]
  simp only [Finset.univ_unique, Finset.sum_singleton, Fintype.card_unique, Nat.cast_one, inv_one, one_smul, hflat]
  rw [← sub_smul, ← Complex.ofReal_sub, HfResponse.fermiMatrix_scalar]

theorem two_back : ![((((fermi 1 0 : ℝ) : ℂ) • (1 : Matrix (Fin 2) (Fin 2) ℂ)) 0 0).re, ((((fermi 1 0 : ℝ) : ℂ) • (1 : Matrix (Fin 2) (Fin 2) ℂ)) 1 1).re,
    ((((fermi 1 0 : ℝ) : ℂ) • (1 : Matrix (Fin 2) (Fin 2) ℂ)) 0 1).re, ((((fermi 1 0 : ℝ) : ℂ) • (1 : Matrix (Fin 2) (Fin 2) ℂ)) 0 1).im]
      = ![1 / 2, 1 / 2, 0, 0] := by
  have h : fermi 1 0 = 1 / 2 := by norm_num [fermi]
  rw [h]
  simp

/-- the hypotheses of `C132_solve_iter` are met by a run on the half filled Hubbard site -/
example : ∃ (p : Params 2 (Fin 1) (Fin 4 → ℝ)) (rho : Matrix (Fin 2) (Fin 2) ℂ) (mu : ℝ), WeakSolver p 1 ∧ VecOk p two (Real.sqrt 2)⁻¹ 1 ∧
    rho.IsHermitian ∧ Matrix.trace rho = ((1 : ℝ) : ℂ) ∧ Solution p.U p.beta mu p.ek rho ∧
    ∀ nitermax, 0 < nitermax → ∃ s' hist, solveIterState p two atomState 1 none (some 0) nitermax (1 / 2) (1 / 1000) = .ok (s', hist) := by
  obtain ⟨eig, hs⟩ := Lindhard.exists_eigSpec (o := Fin 2)
  obtain ⟨brentq, hbr⟩ := exists_brent 0 0 le_rfl le_rfl
  have hw := two_weak hs hbr
  obtain ⟨⟨rho, mu⟩, ⟨h1, h2, h3⟩, -⟩ := C132_exists_number hw.beta hw.bounded hw.weak hw.ek (N := 1) one_pos (by norm_num)
  refine ⟨twoParams eig brentq, rho, mu, hw, two_vec eig brentq, h1, h2, h3, fun nitermax hn => ?_⟩
  have hN : ((2 : ℕ) : ℝ) / 2 = 1 := by norm_num
  have hset : ∃ s0, solveSetup (twoParams eig brentq) atomState 1 none (some 0) = .ok (s0, ![1 / 2, 1 / 2, 0, 0]) := by
    have hflat : ∀ k : Fin 1, (updateDispersion (twoParams eig brentq) { atomState with mu := 0, M := 0 }).ekMF k
        = ((0 : ℝ) : ℂ) • 1 := fun k => by simp [updateDispersion, meanFieldDispersion, twoParams]
    have hu := fun mu0 => updateMu_flat (twoParams eig brentq) hs hbr _ 0 hflat rfl rfl mu0
    simp only [hN] at hu
    unfold solveSetup
    dsimp only
    rw [hu]
    refine ⟨updateDensity (twoParams eig brentq) { updateDispersion (twoParams eig brentq)
      { atomState with mu := 0, M := 0 } with mu := 0 }, congrArg Except.ok (Prod.ext rfl ?_)⟩
    show (twoParams eig brentq).mat2vec (updateDensity (twoParams eig brentq) _).rho = _
    rw [two_density hs brentq _ 0 ?_]
    · rw [sub_zero]
      exact two_back
    · exact hflat
  obtain ⟨s0, h0⟩ := hset
  have hstep : ∃ s1, densityStep (twoParams eig brentq) s0 ![1 / 2, 1 / 2, 0, 0] (some 1) = .ok (s1, ![1 / 2, 1 / 2, 0, 0]) := by
    have hflat : ∀ k : Fin 1, (updateDispersion (twoParams eig brentq) (updateMeanField (twoParams eig brentq) s0
        ((twoParams eig brentq).vec2mat ![1 / 2, 1 / 2, 0, 0]))).ekMF k = ((1 / 2 : ℝ) : ℂ) • 1 := fun k => by
      show 0 + meanField (hubbard 1) _ = _
      rw [hubbard_field]
      ext i j
      fin_cases i <;> fin_cases j <;> simp [twoParams]
    have hu := fun mu0 => updateMu_flat (twoParams eig brentq) hs hbr _ (1 / 2) hflat rfl rfl mu0
    simp only [hN] at hu
    unfold densityStep
    dsimp only
    rw [hu]
    refine ⟨updateDensity (twoParams eig brentq) { updateDispersion (twoParams eig brentq) (updateMeanField
      (twoParams eig brentq) s0 ((twoParams eig brentq).vec2mat ![1 / 2, 1 / 2, 0, 0])) with mu := 1 / 2 },
      congrArg Except.ok (Prod.ext rfl ?_)⟩
    show (twoParams eig brentq).mat2vec (updateDensity (twoParams eig brentq) _).rho = _
    rw [two_density hs brentq _ (1 / 2) ?_]
    · rw [sub_self]
      exact two_back
    · exact hflat
  obtain ⟨s1, h1⟩ := hstep
  obtain ⟨fuel, rfl⟩ := Nat.exists_eq_succ_of_ne_zero hn.ne'
  refine ⟨updateTotalEnergy (twoParams eig brentq) s1, [![1 / 2, 1 / 2, 0, 0]], ?_⟩
  unfold solveIterState
  rw [if_neg (by norm_num), if_neg (by norm_num), h0]
  dsimp only
  rw [solveLoop, h1]
  dsimp only
  rw [if_pos]
  · rfl
  · refine ⟨?_, by simp [two]⟩
    unfold two
    rw [Fin.sum_univ_four]
    have h : (0 : ℝ) < (1 / 2) ^ 2 + (1 / 2) ^ 2 + 0 ^ 2 + 0 ^ 2 := by norm_num
    exact (Real.sqrt_pos.2 h).ne'

end Verif.Unique
