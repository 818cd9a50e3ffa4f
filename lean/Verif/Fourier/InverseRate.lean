import Verif.Fourier.Inverse

/-!
# C115: rate of convergence of the transform from Matsubara frequencies to imaginary time
-/

noncomputable section

set_option linter.unusedSectionVars false

namespace Verif.Fourier

open Complex

/-! ## The transform as a sum over the window -/

theorem phase_neg (s : Stat) (beta : ℝ) (hb : 0 < beta) (L : ℕ) (hL : 0 < L) (m : ℤ) (t : ℕ) :
    exp ((-1 : ℤ) * (2 * Real.pi * I * ((wrap L m : ℕ) * t / L))) * shiftPhase s beta (tauOf beta L t) (-1)
      = exp (-(matsubara s beta m * tauOf beta L t)) := by
  have h := phase_eq s beta hb L hL m t
  have h2 := shiftPhase_mul s beta (tauOf beta L t)
  rw [exp_neg, ← h]
  refine eq_inv_of_mul_eq_one_left ?_
  have e : exp ((-1 : ℤ) * (2 * Real.pi * I * ((wrap L m : ℕ) * t / L))) * exp ((1 : ℤ) * (2 * Real.pi * I * (t * (wrap L m : ℕ) / L))) = 1 := by
    rw [← exp_add, ← exp_zero]
    congr 1
    push_cast
    ring
  calc _ = (exp ((-1 : ℤ) * (2 * Real.pi * I * ((wrap L m : ℕ) * t / L))) * exp ((1 : ℤ) * (2 * Real.pi * I * (t * (wrap L m : ℕ) / L))))
      * (shiftPhase s beta (tauOf beta L t) 1 * shiftPhase s beta (tauOf beta L t) (-1)) := by ring
    _ = 1 := by rw [e, h2, one_mul]

theorem ginStore_other (s : Stat) (beta : ℝ) (L : ℕ) (m1 m2 m3 : ℂ) (y : ℤ → ℂ) (l : List ℤ) (acc : ℕ → ℂ) (j : ℕ)
    (hj : ∀ m ∈ l, wrap L m ≠ j) : l.foldl (ginStore s beta L m1 m2 m3 y) acc j = acc j := by
  induction l generalizing acc with
  | nil => rfl
  | cons m l ih =>
    rw [List.foldl_cons, ih _ fun x hx => hj x (List.mem_cons_of_mem _ hx), ginStore,
      Function.update_of_ne (Ne.symm (hj m (by simp)))]

/-- sum of the window at imaginary time `tau` -/
def windowSum (s : Stat) (beta : ℝ) (N : ℕ) (y : ℤ → ℂ) (tau : ℝ) : ℂ :=
  (1 / beta : ℂ) * ∑ m ∈ wSet s N, y m * exp (-(matsubara s beta m * tau))

theorem fftw1_gin (s : Stat) (beta : ℝ) (hb : 0 < beta) (L N : ℕ) (hN : 0 < N) (hL : 2 * N ≤ L) (m1 m2 m3 : ℂ) (gw : ℤ → ℂ) (t : ℕ) :
    fftw1 (-1) L ((wIndices s N).foldl (ginStore s beta L m1 m2 m3 gw) fun _ => 0) t * shiftPhase s beta (tauOf beta L t) (-1)
      = windowSum s beta N (fun m => gw m - tailW s m1 m2 m3 (matsubara s beta m)) (tauOf beta L t) := by
  have hLpos : 0 < L := by omega
  have hl : ∀ x ∈ wIndices s N, ∀ y ∈ wIndices s N, |x - y| < L := by
    intro x hx y hy
    have h1 := wIndices_bound s N x hx
    have h2 := wIndices_bound s N y hy
    rw [abs_lt]
    omega
  set gin := (wIndices s N).foldl (ginStore s beta L m1 m2 m3 gw) fun _ => 0 with hgin
  have hsub : (wSet s N).image (wrap L) ⊆ Finset.range L := by
    intro j hj
    obtain ⟨m, _, rfl⟩ := Finset.mem_image.1 hj
    exact Finset.mem_range.2 (wrap_lt L hLpos m)
  unfold fftw1
  rw [← Finset.sum_subset hsub, Finset.sum_image]
  · rw [Finset.sum_mul, windowSum, Finset.mul_sum]
    refine Finset.sum_congr rfl fun m hm => ?_
    rw [hgin, gin_value s beta L hLpos m1 m2 m3 gw _ hl _ m (List.mem_toFinset.1 hm), ← phase_neg s beta hb L hLpos m t]
    ring
  · intro x hx y hy e
    exact wrap_inj L hLpos x y (hl x (List.mem_toFinset.1 hx) y (List.mem_toFinset.1 hy)) e
  · intro j _ hj
    rw [hgin, ginStore_other, mul_zero]
    intro m hm e
    exact hj (Finset.mem_image.2 ⟨m, List.mem_toFinset.2 hm, e⟩)

/-- the result of the transform -/
theorem wToTau_value (s : Stat) (beta : ℝ) (hb : 0 < beta) (L N : ℕ) (hN : 0 < N) (hL : 2 * N ≤ L) (m1 m2 m3 : ℂ) (gw : ℤ → ℂ) :
    ∃ gt, wToTau s beta L N m1 m2 m3 gw = .ok gt ∧
      (∀ t, t ≠ L → gt t = windowSum s beta N (fun m => gw m - tailW s m1 m2 m3 (matsubara s beta m)) (tauOf beta L t)
        + tailT s m1 m2 m3 beta (tauOf beta L t)) ∧ gt L = boundarySign s * (gt 0 + m1) := by
  refine ⟨_, if_neg (not_lt.2 hL), fun t ht => ?_, ?_⟩
  · rw [Function.update_of_ne ht, fftw1_gin s beta hb L N hN hL]
  · rw [Function.update_self, Function.update_of_ne (by omega)]

/-! ## Jumps of the tail -/

/-- derivative of the tail: the residues are multiplied by `-b` -/
theorem jump_tail2 (s : Stat) (m1 m2 m3 : ℂ) (beta : ℝ) (hb : 0 < beta) :
    jump s beta (iteratedDeriv 2 fun tau => tailT s m1 m2 m3 beta tau) = -m3 := by
  have hm := (C12_moments s m1 m2 m3).2.2
  rw [iteratedDeriv_succ, iteratedDeriv_one]
  cases s
  · have hd : ∀ x, HasDerivAt (fun tau => tailT .fermion m1 m2 m3 beta tau)
        (∑ j, oneFermion (-poleA .fermion m1 m2 m3 j * poleB .fermion j) (poleB .fermion j) x beta) x := by
      intro x
      simp only [tailT]
      exact HasDerivAt.fun_sum fun j _ => hasDerivAt_oneFermion _ _ _ _
    have e : deriv (fun tau => tailT .fermion m1 m2 m3 beta tau)
        = fun x => ∑ j, oneFermion (-poleA .fermion m1 m2 m3 j * poleB .fermion j) (poleB .fermion j) x beta :=
      funext fun x => (hd x).deriv
    have hd2 : ∀ x, HasDerivAt (fun x => ∑ j, oneFermion (-poleA .fermion m1 m2 m3 j * poleB .fermion j) (poleB .fermion j) x beta)
        (∑ j, oneFermion (-(-poleA .fermion m1 m2 m3 j * poleB .fermion j) * poleB .fermion j) (poleB .fermion j) x beta) x :=
      fun x => HasDerivAt.fun_sum fun j _ => hasDerivAt_oneFermion _ _ _ _
    rw [jump, e, (hd2 0).deriv, (hd2 beta).deriv]
    have h : ∑ j, -(oneFermion (-(-poleA .fermion m1 m2 m3 j * poleB .fermion j) * poleB .fermion j) (poleB .fermion j) 0 beta
        + oneFermion (-(-poleA .fermion m1 m2 m3 j * poleB .fermion j) * poleB .fermion j) (poleB .fermion j) beta beta) = m3 := by
      rw [Finset.sum_congr rfl fun j _ => (C12_jump _ _ beta hb).1]
      refine Eq.trans ?_ hm
      exact Finset.sum_congr rfl fun j _ => by ring
    rw [Finset.sum_neg_distrib, Finset.sum_add_distrib] at h
    simp only [boundarySign]
    linear_combination -h
  · have hd : ∀ x, HasDerivAt (fun tau => tailT .boson m1 m2 m3 beta tau)
        (∑ j, oneBoson (-poleA .boson m1 m2 m3 j * poleB .boson j) (poleB .boson j) x beta) x := by
      intro x
      simp only [tailT]
      exact HasDerivAt.fun_sum fun j _ => hasDerivAt_oneBoson _ _ _ _
    have e : deriv (fun tau => tailT .boson m1 m2 m3 beta tau)
        = fun x => ∑ j, oneBoson (-poleA .boson m1 m2 m3 j * poleB .boson j) (poleB .boson j) x beta :=
      funext fun x => (hd x).deriv
    have hd2 : ∀ x, HasDerivAt (fun x => ∑ j, oneBoson (-poleA .boson m1 m2 m3 j * poleB .boson j) (poleB .boson j) x beta)
        (∑ j, oneBoson (-(-poleA .boson m1 m2 m3 j * poleB .boson j) * poleB .boson j) (poleB .boson j) x beta) x :=
      fun x => HasDerivAt.fun_sum fun j _ => hasDerivAt_oneBoson _ _ _ _
    rw [jump, e, (hd2 0).deriv, (hd2 beta).deriv]
    have h : ∑ j, -(oneBoson (-(-poleA .boson m1 m2 m3 j * poleB .boson j) * poleB .boson j) (poleB .boson j) 0 beta
        - oneBoson (-(-poleA .boson m1 m2 m3 j * poleB .boson j) * poleB .boson j) (poleB .boson j) beta beta) = m3 := by
      rw [Finset.sum_congr rfl fun j _ => (C12_jump _ _ beta hb).2 (by fin_cases j <;> simp [poleB])]
      refine Eq.trans ?_ hm
      exact Finset.sum_congr rfl fun j _ => by ring
    rw [Finset.sum_neg_distrib, Finset.sum_sub_distrib] at h
    simp only [boundarySign]
    linear_combination -h

theorem jump_tail0 (s : Stat) (m1 m2 m3 : ℂ) (beta : ℝ) (hb : 0 < beta) :
    jump s beta (fun tau => tailT s m1 m2 m3 beta tau) = -m1 := by
  have hj := C12_tail_jump m1 m2 m3 beta hb
  cases s
  · have h1 := hj.1
    simp only [jump, boundarySign]
    linear_combination -h1
  · have h1 := hj.2
    simp only [jump, boundarySign]
    linear_combination -h1

theorem jump_sub (s : Stat) (beta : ℝ) (f g : ℝ → ℂ) : jump s beta (fun x => f x - g x) = jump s beta f - jump s beta g := by
  simp only [jump]
  ring

/-- the exact moments -/
structure Moments where
  m1 : ℂ
  m2 : ℂ
  m3 : ℂ

/-- The coefficients of `1/iω`, `1/(iω)²`, `1/(iω)³` of the transform of a function, from its jumps. -/
def exactMoments (s : Stat) (beta : ℝ) (g : ℝ → ℂ) : Moments :=
  ⟨-jump s beta g, jump s beta (deriv g), -jump s beta (iteratedDeriv 2 g)⟩

/-- C115: the exact moments are the coefficients of the high frequency expansion. -/
theorem C115_moments (s : Stat) (beta : ℝ) (hb : 0 < beta) (g : ℝ → ℂ) (hg : ContDiff ℝ 4 g) :
    ∃ K, 0 ≤ K ∧ ∀ m, matsubara s beta m ≠ 0 →
      ‖coeff s beta g m - ((exactMoments s beta g).m1 / matsubara s beta m + (exactMoments s beta g).m2 / matsubara s beta m ^ 2
        + (exactMoments s beta g).m3 / matsubara s beta m ^ 3)‖ ≤ K / ‖matsubara s beta m‖ ^ 4 := by
  have hd : ∀ k : ℕ, k < 4 → ∀ x, HasDerivAt (iteratedDeriv k g) (iteratedDeriv (k + 1) g x) x := by
    intro k hk x
    rw [iteratedDeriv_succ]
    exact (hg.differentiable_iteratedDeriv k (by exact_mod_cast hk) x).hasDerivAt
  have hc : ∀ k : ℕ, k ≤ 4 → Continuous (iteratedDeriv k g) := fun k hk => hg.continuous_iteratedDeriv k (by exact_mod_cast hk)
  obtain ⟨Z, hZ⟩ := (isCompact_Icc (a := (0 : ℝ)) (b := beta)).exists_bound_of_continuousOn (hc 4 le_rfl).continuousOn
  have hZ0 : 0 ≤ Z := (norm_nonneg _).trans (hZ 0 ⟨le_rfl, hb.le⟩)
  refine ⟨‖jump s beta (iteratedDeriv 3 g)‖ + Z * beta, by positivity, fun m hm => ?_⟩
  have p0 := coeff_parts s beta hb _ _ (hd 0 (by norm_num)) (hc 1 (by norm_num)) m hm
  have p1 := coeff_parts s beta hb _ _ (hd 1 (by norm_num)) (hc 2 (by norm_num)) m hm
  have p2 := coeff_parts s beta hb _ _ (hd 2 (by norm_num)) (hc 3 (by norm_num)) m hm
  have p3 := coeff_parts s beta hb _ _ (hd 3 (by norm_num)) (hc 4 (by norm_num)) m hm
  have hb4 := coeff_norm_le s beta hb _ Z hZ m
  rw [p1, p2, p3, iteratedDeriv_zero, iteratedDeriv_one] at p0
  have e : coeff s beta g m - ((exactMoments s beta g).m1 / matsubara s beta m + (exactMoments s beta g).m2 / matsubara s beta m ^ 2
        + (exactMoments s beta g).m3 / matsubara s beta m ^ 3)
      = (jump s beta (iteratedDeriv 3 g) + coeff s beta (iteratedDeriv 4 g) m) / matsubara s beta m ^ 4 := by
    rw [p0]
    simp only [exactMoments]
    field_simp
    ring
  rw [e, norm_div, norm_pow]
  gcongr
  exact (norm_add_le _ _).trans (add_le_add le_rfl hb4)

/-- the function without its tail has no jumps -/
theorem remainder_jumps (s : Stat) (beta : ℝ) (hb : 0 < beta) (g : ℝ → ℂ) (hg : ContDiff ℝ 4 g) :
    jump s beta (fun tau => g tau - tailT s (exactMoments s beta g).m1 (exactMoments s beta g).m2 (exactMoments s beta g).m3 beta tau) = 0 ∧
    jump s beta (deriv fun tau => g tau - tailT s (exactMoments s beta g).m1 (exactMoments s beta g).m2 (exactMoments s beta g).m3 beta tau) = 0 ∧
    jump s beta (iteratedDeriv 2 fun tau =>
      g tau - tailT s (exactMoments s beta g).m1 (exactMoments s beta g).m2 (exactMoments s beta g).m3 beta tau) = 0 := by
  set M := exactMoments s beta g with hM
  have hT : ContDiff ℝ 4 fun tau => tailT s M.m1 M.m2 M.m3 beta tau := contDiff_tailT s _ _ _ beta
  refine ⟨?_, ?_, ?_⟩
  · rw [jump_sub, jump_tail0 s _ _ _ beta hb, hM, exactMoments]
    ring
  · have e : (deriv fun tau => g tau - tailT s M.m1 M.m2 M.m3 beta tau)
        = fun tau => deriv g tau - deriv (fun tau => tailT s M.m1 M.m2 M.m3 beta tau) tau := by
      funext x
      exact deriv_fun_sub (hg.differentiable (by norm_num) x) (hT.differentiable (by norm_num) x)
    have h : jump s beta (fun tau => deriv (fun tau => tailT s M.m1 M.m2 M.m3 beta tau) tau) = M.m2 := deriv_tailT s _ _ _ beta hb
    rw [e, jump_sub, h, hM, exactMoments]
    exact sub_self _
  · have e : (iteratedDeriv 2 fun tau => g tau - tailT s M.m1 M.m2 M.m3 beta tau)
        = fun tau => iteratedDeriv 2 g tau - iteratedDeriv 2 (fun tau => tailT s M.m1 M.m2 M.m3 beta tau) tau := by
      funext x
      exact iteratedDeriv_fun_sub (hg.of_le (by norm_num)).contDiffAt (hT.of_le (by norm_num)).contDiffAt
    have h : jump s beta (fun tau => iteratedDeriv 2 (fun tau => tailT s M.m1 M.m2 M.m3 beta tau) tau) = -M.m3 :=
      jump_tail2 s _ _ _ beta hb
    rw [e, jump_sub, h, hM, exactMoments]
    simp

/-! ## Dependence on the moments -/

theorem coeff_tail (s : Stat) (m1 m2 m3 : ℂ) (beta : ℝ) (hb : 0 < beta) (m : ℤ) :
    coeff s beta (fun tau => tailT s m1 m2 m3 beta tau) m = tailW s m1 m2 m3 (matsubara s beta m) :=
  C12_tail_transform s m1 m2 m3 beta hb m

theorem norm_phase (s : Stat) (beta : ℝ) (m : ℤ) (tau : ℝ) : ‖exp (-(matsubara s beta m * tau))‖ = 1 := by
  rw [norm_exp]
  cases s <;> simp [matsubara]

/-- a smooth function with jumps: the sum over the window is bounded by the number of frequencies -/
theorem window_crude (s : Stat) (beta : ℝ) (hb : 0 < beta) (f : ℝ → ℂ) (hf : Continuous f) :
    ∃ C, 0 ≤ C ∧ ∀ N : ℕ, 0 < N → ∀ tau, 0 ≤ tau → tau ≤ beta → ‖windowSum s beta N (coeff s beta f) tau - f tau‖ ≤ C * N := by
  obtain ⟨Z, hZ⟩ := (isCompact_Icc (a := (0 : ℝ)) (b := beta)).exists_bound_of_continuousOn hf.continuousOn
  have hZ0 : 0 ≤ Z := (norm_nonneg _).trans (hZ 0 ⟨le_rfl, hb.le⟩)
  refine ⟨3 * Z, by positivity, fun N hN tau h0 h1 => ?_⟩
  have hN1 : (1 : ℝ) ≤ N := by exact_mod_cast hN
  have hcard : ((wSet s N).card : ℝ) ≤ 2 * N := by
    have h : (wSet s N).card ≤ 2 * N := by
      refine (List.toFinset_card_le _).trans ?_
      cases s
      · simp [wIndices]
      · simp [wIndices]
    exact_mod_cast h
  have h2 : ‖windowSum s beta N (coeff s beta f) tau‖ ≤ 2 * Z * N := by
    rw [windowSum, norm_mul, norm_div, norm_one, Complex.norm_real, Real.norm_of_nonneg hb.le]
    have h3 : ‖∑ m ∈ wSet s N, coeff s beta f m * exp (-(matsubara s beta m * tau))‖ ≤ (wSet s N).card * (Z * beta) := by
      refine (norm_sum_le _ _).trans ?_
      rw [← nsmul_eq_mul]
      refine Finset.sum_le_card_nsmul _ _ _ fun m _ => ?_
      rw [norm_mul, norm_phase, mul_one]
      exact coeff_norm_le s beta hb f Z hZ m
    calc 1 / beta * ‖∑ m ∈ wSet s N, coeff s beta f m * exp (-(matsubara s beta m * tau))‖
        ≤ 1 / beta * ((wSet s N).card * (Z * beta)) := by gcongr
      _ ≤ 1 / beta * (2 * N * (Z * beta)) := by gcongr
      _ = 2 * Z * N := by field_simp
  refine (norm_sub_le _ _).trans ?_
  have h4 := hZ tau ⟨h0, h1⟩
  nlinarith

/-- a function without jump: the coefficients are summable -/
theorem summable_smooth (s : Stat) (beta : ℝ) (hb : 0 < beta) (f : ℝ → ℂ) (hf : ContDiff ℝ 2 f) (h0 : jump s beta f = 0) :
    Summable (coeff s beta f) := by
  have hd : ∀ k : ℕ, k < 2 → ∀ x, HasDerivAt (iteratedDeriv k f) (iteratedDeriv (k + 1) f x) x := by
    intro k hk x
    rw [iteratedDeriv_succ]
    exact (hf.differentiable_iteratedDeriv k (by exact_mod_cast hk) x).hasDerivAt
  have hc : ∀ k : ℕ, k ≤ 2 → Continuous (iteratedDeriv k f) := fun k hk => hf.continuous_iteratedDeriv k (by exact_mod_cast hk)
  obtain ⟨Z, hZ⟩ := (isCompact_Icc (a := (0 : ℝ)) (b := beta)).exists_bound_of_continuousOn (hc 2 le_rfl).continuousOn
  have hZ0 : 0 ≤ Z := (norm_nonneg _).trans (hZ 0 ⟨le_rfl, hb.le⟩)
  set K := ‖jump s beta (iteratedDeriv 1 f)‖ + Z * beta with hK
  have hK0 : 0 ≤ K := by positivity
  have h1 : Summable fun m : ℤ => K * (beta / Real.pi) ^ 2 * (1 / (m : ℝ) ^ 2) :=
    (Real.summable_one_div_int_pow.2 (by norm_num)).mul_left _
  refine Summable.of_norm_bounded_eventually h1 ?_
  filter_upwards [(wSet s 1).finite_toSet.compl_mem_cofinite] with m hm
  obtain ⟨h2, h3, h4⟩ := matsubara_outside s beta hb 1 one_pos m hm
  have hp : 0 < Real.pi / beta := by positivity
  have hw : 0 < ‖matsubara s beta m‖ := lt_of_lt_of_le (by positivity) h2
  have hm' : (0 : ℝ) < |(m : ℝ)| := abs_pos.2 (by exact_mod_cast h4)
  have hne : matsubara s beta m ≠ 0 := norm_pos_iff.1 hw
  have e0 := coeff_parts s beta hb _ _ (hd 0 (by norm_num)) (hc 1 (by norm_num)) m hne
  have e1 := coeff_parts s beta hb _ _ (hd 1 (by norm_num)) (hc 2 (by norm_num)) m hne
  rw [iteratedDeriv_zero, h0] at e0
  simp only [zero_add, Nat.reduceAdd] at e0 e1
  rw [e0, e1]
  have e : -(-(jump s beta (iteratedDeriv 1 f) + coeff s beta (iteratedDeriv 2 f) m) / matsubara s beta m) / matsubara s beta m
      = (jump s beta (iteratedDeriv 1 f) + coeff s beta (iteratedDeriv 2 f) m) / matsubara s beta m ^ 2 := by
    field_simp
  rw [e, norm_div, norm_pow]
  have hnum : ‖jump s beta (iteratedDeriv 1 f) + coeff s beta (iteratedDeriv 2 f) m‖ ≤ K :=
    (norm_add_le _ _).trans (add_le_add le_rfl (coeff_norm_le s beta hb _ Z hZ m))
  calc _ ≤ K / (Real.pi / beta * |(m : ℝ)|) ^ 2 := by gcongr
    _ = _ := by
      rw [mul_pow, sq_abs]
      have hm2 : (m : ℝ) ≠ 0 := by exact_mod_cast h4
      field_simp

theorem window_bounded (s : Stat) (beta : ℝ) (hb : 0 < beta) (f : ℝ → ℂ) (hf : ContDiff ℝ 2 f) (h0 : jump s beta f = 0) :
    ∃ C, 0 ≤ C ∧ ∀ N : ℕ, ∀ tau, 0 ≤ tau → tau ≤ beta → ‖windowSum s beta N (coeff s beta f) tau - f tau‖ ≤ C := by
  have hs := summable_smooth s beta hb f hf h0
  obtain ⟨Z, hZ⟩ := (isCompact_Icc (a := (0 : ℝ)) (b := beta)).exists_bound_of_continuousOn hf.continuous.continuousOn
  have hZ0 : 0 ≤ Z := (norm_nonneg _).trans (hZ 0 ⟨le_rfl, hb.le⟩)
  have hn : 0 ≤ ∑' m, ‖coeff s beta f m‖ := tsum_nonneg fun _ => norm_nonneg _
  refine ⟨1 / beta * ∑' m, ‖coeff s beta f m‖ + Z, by positivity, fun N tau ht0 ht1 => ?_⟩
  refine (norm_sub_le _ _).trans (add_le_add ?_ (hZ tau ⟨ht0, ht1⟩))
  rw [windowSum, norm_mul, norm_div, norm_one, Complex.norm_real, Real.norm_of_nonneg hb.le]
  gcongr
  refine (norm_sum_le _ _).trans ?_
  simp only [norm_mul, norm_phase, mul_one]
  exact hs.norm.sum_le_tsum _ fun _ _ => norm_nonneg _

/-! ## The error -/

theorem windowSum_add (s : Stat) (beta : ℝ) (N : ℕ) (y z : ℤ → ℂ) (tau : ℝ) :
    windowSum s beta N (fun m => y m + z m) tau = windowSum s beta N y tau + windowSum s beta N z tau := by
  simp only [windowSum, add_mul, Finset.sum_add_distrib, mul_add]

theorem windowSum_mul (s : Stat) (beta : ℝ) (N : ℕ) (c : ℂ) (y : ℤ → ℂ) (tau : ℝ) :
    windowSum s beta N (fun m => c * y m) tau = c * windowSum s beta N y tau := by
  simp only [windowSum, mul_assoc, ← Finset.mul_sum]
  ring

theorem tailW_linear (s : Stat) (m1 m2 m3 w : ℂ) : tailW s m1 m2 m3 w
    = m1 * tailW s 1 0 0 w + m2 * tailW s 0 1 0 w + m3 * tailW s 0 0 1 w := by
  cases s
  · simp only [tailW, Fin.sum_univ_three, poleA]
    simp
    ring
  · simp only [tailW, Fin.sum_univ_three, poleA]
    simp
    ring

theorem coeff_sub (s : Stat) (beta : ℝ) (f g : ℝ → ℂ) (hf : Continuous f) (hg : Continuous g) (m : ℤ) :
    coeff s beta (fun x => f x - g x) m = coeff s beta f m - coeff s beta g m := by
  have hE : Continuous fun tau : ℝ => exp (matsubara s beta m * tau) := (contDiff_phase (n := 2) s beta m).continuous
  have i1 : Continuous fun tau : ℝ => exp (matsubara s beta m * tau) * f tau := hE.mul hf
  have i2 : Continuous fun tau : ℝ => exp (matsubara s beta m * tau) * g tau := hE.mul hg
  rw [coeff, coeff, coeff, ← intervalIntegral.integral_sub (i1.intervalIntegrable _ _) (i2.intervalIntegrable _ _)]
  simp only [mul_sub]

/-- C115: the Matsubara coefficients of a smooth function of imaginary time, transformed back with moments `m1`, `m2`, `m3`, give
the function on the whole time mesh; the error decreases with the square of the number of frequencies, as far as the moments are
exact. -/
theorem C115_w_to_tau (s : Stat) (beta : ℝ) (hb : 0 < beta) (g : ℝ → ℂ) (hg : ContDiff ℝ 4 g) :
    ∃ C, 0 ≤ C ∧ ∀ (L N : ℕ) (m1 m2 m3 : ℂ), 0 < N → 2 * N ≤ L →
      ∃ gt, wToTau s beta L N m1 m2 m3 (coeff s beta g) = .ok gt ∧ ∀ t, t ≤ L →
        ‖gt t - g (tauOf beta L t)‖ ≤ C * (1 / (N : ℝ) ^ 2 + N * ‖m1 - (exactMoments s beta g).m1‖
          + ‖m2 - (exactMoments s beta g).m2‖ + ‖m3 - (exactMoments s beta g).m3‖) := by
  set M := exactMoments s beta g with hM
  have hT : ∀ a b c : ℂ, ContDiff ℝ 4 fun tau => tailT s a b c beta tau := fun a b c => contDiff_tailT s a b c beta
  obtain ⟨j0, j1, j2⟩ := remainder_jumps s beta hb g hg
  obtain ⟨C0, hC0, h0⟩ := window_error s beta hb _ (hg.sub (hT M.m1 M.m2 M.m3)) j0 j1 j2
  obtain ⟨C1, hC1, h1⟩ := window_crude s beta hb _ (hT 1 0 0).continuous
  obtain ⟨C2, hC2, h2⟩ := window_bounded s beta hb _ ((hT 0 1 0).of_le (by norm_num)) (by rw [jump_tail0 s _ _ _ beta hb, neg_zero])
  obtain ⟨C3, hC3, h3⟩ := window_bounded s beta hb _ ((hT 0 0 1).of_le (by norm_num)) (by rw [jump_tail0 s _ _ _ beta hb, neg_zero])
  refine ⟨C0 + C1 + C2 + C3 + 1, by positivity, fun L N m1 m2 m3 hN hL => ?_⟩
  obtain ⟨gt, hgt, hval, hend⟩ := wToTau_value s beta hb L N hN hL m1 m2 m3 (coeff s beta g)
  refine ⟨gt, hgt, ?_⟩
  have hN1 : (1 : ℝ) ≤ N := by exact_mod_cast hN
  have hLpos : (0 : ℝ) < L := by exact_mod_cast (by omega : 0 < L)
  have hE : ∀ tau, 0 ≤ tau → tau ≤ beta →
      ‖windowSum s beta N (fun m => coeff s beta g m - tailW s m1 m2 m3 (matsubara s beta m)) tau + tailT s m1 m2 m3 beta tau - g tau‖
        ≤ C0 / N ^ 2 + ‖m1 - M.m1‖ * (C1 * N) + ‖m2 - M.m2‖ * C2 + ‖m3 - M.m3‖ * C3 := by
    intro tau ht0 ht1
    have e : windowSum s beta N (fun m => coeff s beta g m - tailW s m1 m2 m3 (matsubara s beta m)) tau
          + tailT s m1 m2 m3 beta tau - g tau
        = (windowSum s beta N (coeff s beta fun tau => g tau - tailT s M.m1 M.m2 M.m3 beta tau) tau
            - (g tau - tailT s M.m1 M.m2 M.m3 beta tau))
          - (m1 - M.m1) * (windowSum s beta N (coeff s beta fun tau => tailT s 1 0 0 beta tau) tau - tailT s 1 0 0 beta tau)
          - (m2 - M.m2) * (windowSum s beta N (coeff s beta fun tau => tailT s 0 1 0 beta tau) tau - tailT s 0 1 0 beta tau)
          - (m3 - M.m3) * (windowSum s beta N (coeff s beta fun tau => tailT s 0 0 1 beta tau) tau - tailT s 0 0 1 beta tau) := by
      have e1 : (fun m => coeff s beta g m - tailW s m1 m2 m3 (matsubara s beta m))
          = fun m => coeff s beta (fun tau => g tau - tailT s M.m1 M.m2 M.m3 beta tau) m
            + (-(m1 - M.m1) * coeff s beta (fun tau => tailT s 1 0 0 beta tau) m
              + (-(m2 - M.m2) * coeff s beta (fun tau => tailT s 0 1 0 beta tau) m
              + -(m3 - M.m3) * coeff s beta (fun tau => tailT s 0 0 1 beta tau) m)) := by
        funext m
        rw [coeff_sub s beta _ _ hg.continuous (hT _ _ _).continuous]
        simp only [coeff_tail s _ _ _ beta hb]
        rw [tailW_linear s m1 m2 m3, tailW_linear s M.m1 M.m2 M.m3]
        ring
      rw [e1, windowSum_add, windowSum_add, windowSum_add, windowSum_mul, windowSum_mul, windowSum_mul, tailT_linear s m1 m2 m3,
        tailT_linear s M.m1 M.m2 M.m3]
      ring
    rw [e]
    refine (norm_sub_le _ _).trans (add_le_add ((norm_sub_le _ _).trans (add_le_add ((norm_sub_le _ _).trans
      (add_le_add (h0 N hN tau ht0 ht1) ?_)) ?_)) ?_)
    · rw [norm_mul]
      exact mul_le_mul_of_nonneg_left (h1 N hN tau ht0 ht1) (norm_nonneg _)
    · rw [norm_mul]
      exact mul_le_mul_of_nonneg_left (h2 N tau ht0 ht1) (norm_nonneg _)
    · rw [norm_mul]
      exact mul_le_mul_of_nonneg_left (h3 N tau ht0 ht1) (norm_nonneg _)
  set B := C0 / N ^ 2 + ‖m1 - M.m1‖ * (C1 * N) + ‖m2 - M.m2‖ * C2 + ‖m3 - M.m3‖ * C3 with hB
  have hfin : B + ‖m1 - M.m1‖ ≤ (C0 + C1 + C2 + C3 + 1) * (1 / (N : ℝ) ^ 2 + N * ‖m1 - M.m1‖
      + ‖m2 - M.m2‖ + ‖m3 - M.m3‖) := by
    have n1 := norm_nonneg (m1 - M.m1)
    have n2 := norm_nonneg (m2 - M.m2)
    have n3 := norm_nonneg (m3 - M.m3)
    set x := 1 / (N : ℝ) ^ 2 with hx
    have hx0 : 0 ≤ x := by positivity
    have hxe : C0 / (N : ℝ) ^ 2 = C0 * x := by rw [hx]; ring
    set y := N * ‖m1 - M.m1‖ with hy
    have hy0 : 0 ≤ y := by positivity
    have hy1 : ‖m1 - M.m1‖ ≤ y := le_mul_of_one_le_left n1 hN1
    have e1 : ‖m1 - M.m1‖ * (C1 * N) = C1 * y := by rw [hy]; ring
    rw [hB, hxe, e1]
    have p1 : C0 * x ≤ C0 * (x + y + ‖m2 - M.m2‖ + ‖m3 - M.m3‖) := by gcongr; linarith
    have p2 : C1 * y ≤ C1 * (x + y + ‖m2 - M.m2‖ + ‖m3 - M.m3‖) := by gcongr; linarith
    have p3 : ‖m2 - M.m2‖ * C2 ≤ C2 * (x + y + ‖m2 - M.m2‖ + ‖m3 - M.m3‖) := by rw [mul_comm]; gcongr; linarith
    have p4 : ‖m3 - M.m3‖ * C3 ≤ C3 * (x + y + ‖m2 - M.m2‖ + ‖m3 - M.m3‖) := by rw [mul_comm]; gcongr; linarith
    linarith
  intro t ht
  refine le_trans ?_ hfin
  have hnn := norm_nonneg (m1 - M.m1)
  rcases ht.lt_or_eq with h | h
  · rw [hval t (by omega)]
    have hb1 : tauOf beta L t ≤ beta := by
      rw [tauOf, div_le_iff₀ hLpos]
      have : (t : ℝ) ≤ L := by exact_mod_cast ht
      gcongr
    have := hE (tauOf beta L t) (by rw [tauOf]; positivity) hb1
    linarith
  · subst h
    have e0 : tauOf beta t 0 = 0 := by simp [tauOf]
    have eL : tauOf beta t t = beta := by
      rw [tauOf]
      field_simp
    have hg0 := hval 0 (by omega)
    rw [e0] at hg0
    have h4 := hE 0 le_rfl hb.le
    rw [← hg0] at h4
    have e : gt t - g (tauOf beta t t) = boundarySign s * ((gt 0 - g 0) + (m1 - M.m1)) := by
      have hm : M.m1 = -(g 0 - boundarySign s * g beta) := rfl
      have hs := boundarySign_sq s
      rw [hend, eL, hm]
      linear_combination g beta * hs
    have hs1 : ‖boundarySign s‖ = 1 := by cases s <;> simp [boundarySign]
    rw [e, norm_mul, hs1, one_mul]
    exact (norm_add_le _ _).trans (add_le_add h4 le_rfl)

end Verif.Fourier
