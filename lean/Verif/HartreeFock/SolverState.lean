import Verif.HartreeFock.SolverProps
import Verif.HfResponse.Examples

/-!
# C86: the state left behind by the drivers of the mean field solver
-/

noncomputable section

namespace Verif.HartreeFock

open Matrix
open Verif.HfResponse (fermiMatrix)

variable {n : ℕ} {κ : Type*} {V : Type*} [Fintype κ]

set_option linter.unusedSectionVars false

/-! ## Specification -/

/-- the attributes describing the density belong to the mean field of the density matrix `rho0`: the mean field,
the bands, and the thermal density matrices of these bands at the reported chemical potential -/
structure DensityOf (U : Operators.T4 n) (beta : ℝ) (ek : κ → Matrix (Fin n) (Fin n) ℂ)
    (rho0 : Matrix (Fin n) (Fin n) ℂ) (s : State n κ) : Prop where
  mean : s.M = meanField U rho0
  bands : ∀ k, s.ekMF k = ek k + s.M
  rhok : ∀ k, s.rhok k = fermiMatrix beta (s.ekMF k - (s.mu : ℂ) • 1)
  rho : s.rho = (Fintype.card κ : ℂ)⁻¹ • ∑ k, s.rhok k
  number : s.ntot = Matrix.trace s.rho

/-- the reported energies belong to the reported density matrices, bands and chemical potential -/
structure EnergyOf (U : Operators.T4 n) (beta : ℝ) (ek : κ → Matrix (Fin n) (Fin n) ℂ) (s : State n κ) : Prop where
  kinetic : s.ekin = (Fintype.card κ : ℂ)⁻¹ * ∑ k, Matrix.trace (ek k * s.rhok k)
  interaction : s.eint = (1 / 2) * ∑ a, ∑ b, ∑ c, ∑ d, s.rho a b * U a b c d * s.rho c d
  total : s.etot = s.ekin + s.eint
  -- partition function of free particles in the mean field bands
  omega0 : ((Real.exp (-beta * (Fintype.card κ : ℝ) * s.omega0) : ℝ) : ℂ)
    = ∏ k, Matrix.det (1 + NormedSpace.exp ((beta : ℂ) • -(s.ekMF k - (s.mu : ℂ) • 1)))
  omega : s.omega = (s.omega0 : ℂ) + s.eint

/-! ## Lemmas -/

theorem updateDensity_mu [Nonempty κ] [NeZero n] (p : Params n κ V) (s : State n κ) :
    (updateDensity p s).mu = s.mu ∧ (updateDensity p s).M = s.M ∧ (updateDensity p s).ekMF = s.ekMF :=
  ⟨rfl, rfl, rfl⟩

theorem updateMu_ok [Nonempty κ] [NeZero n] (p : Params n κ V) (s s' : State n κ) (N : ℝ) (mu0 : Option ℝ)
    (h : updateMu p s N mu0 = .ok s') : s' = { s with mu := s'.mu } := by
  obtain ⟨lo, hi, hu⟩ := updateMu_brentq p s N mu0
  rw [hu] at h
  cases hq : p.brentq (targetFunction p s N) lo hi with
  | error e => rw [hq] at h; cases h
  | ok mu =>
    rw [hq] at h
    obtain rfl := Except.ok.inj h
    rfl

theorem updateDensity_rhok [Nonempty κ] [NeZero n] (p : Params n κ V) (hs : Lindhard.EigSpec p.eig)
    (s : State n κ) (hh : ∀ k, (s.ekMF k).IsHermitian) (k : κ) :
    (updateDensity p s).rhok k = fermiMatrix p.beta (s.ekMF k - (s.mu : ℂ) • 1) :=
  congrFun (momentumDensity_eq p.beta s.mu hs s.ekMF hh) k

theorem density_smul (rhok : κ → Matrix (Fin n) (Fin n) ℂ) :
    density rhok = (Fintype.card κ : ℂ)⁻¹ • ∑ k, rhok k := by
  ext a b
  simp only [density, Matrix.smul_apply, Matrix.sum_apply, smul_eq_mul]
  rw [div_eq_inv_mul]

theorem densityStep_spec [Nonempty κ] [NeZero n] (p : Params n κ V) (hs : Lindhard.EigSpec p.eig)
    (hh : ∀ v k, (p.ek k + meanField p.U (p.vec2mat v)).IsHermitian) (s s' : State n κ) (v new : V)
    (N : Option ℝ) (h : densityStep p s v N = .ok (s', new)) :
    DensityOf p.U p.beta p.ek (p.vec2mat v) s' ∧ new = p.mat2vec s'.rho ∧ (N = none → s'.mu = s.mu) := by
  have key : ∀ s1 : State n κ, s1.M = meanField p.U (p.vec2mat v) →
      s1.ekMF = meanFieldDispersion p.ek (meanField p.U (p.vec2mat v)) →
      DensityOf p.U p.beta p.ek (p.vec2mat v) (updateDensity p s1) := by
    intro s1 h1 h2
    refine ⟨h1, fun k => ?_, fun k => ?_, density_smul _, rfl⟩
    · show s1.ekMF k = p.ek k + s1.M
      rw [h1, h2]; rfl
    · exact updateDensity_rhok p hs s1 (fun k => by rw [h2]; exact hh v k) k
  unfold densityStep at h
  cases N with
  | none =>
    obtain ⟨h1, h2⟩ := Prod.mk.inj (Except.ok.inj h)
    subst h1
    exact ⟨key _ rfl rfl, h2.symm, fun _ => rfl⟩
  | some N =>
    dsimp only at h
    cases hu : updateMu p (updateDispersion p (updateMeanField p s (p.vec2mat v))) N
        (some (updateDispersion p (updateMeanField p s (p.vec2mat v))).mu) with
    | error e => rw [hu] at h; cases h
    | ok s1 =>
      rw [hu] at h
      obtain ⟨h1, h2⟩ := Prod.mk.inj (Except.ok.inj h)
      subst h1
      have h3 := updateMu_ok p _ _ _ _ hu
      exact ⟨key s1 (by rw [h3]; rfl) (by rw [h3]; rfl), h2.symm, fun hn => by cases hn⟩

/-- with a target the number of particles is the requested one up to the tolerance of the root finder -/
theorem densityStep_number [Nonempty κ] [NeZero n] (p : Params n κ V) (hb : 0 ≤ p.beta)
    (hs : Lindhard.EigSpec p.eig) (hsv : Lindhard.EigSpec p.eigv) (xtol rtol : ℝ)
    (hbr : BrentSpec xtol rtol p.brentq)
    (hh : ∀ v k, (p.ek k + meanField p.U (p.vec2mat v)).IsHermitian) (s s' : State n κ) (v new : V) (N : ℝ)
    (h : densityStep p s v (some N) = .ok (s', new)) :
    ‖s'.ntot - N‖ ≤ n * p.beta / 4 * (xtol + rtol * |s'.mu|) := by
  have hd := (densityStep_spec p hs hh s s' v new _ h).1
  unfold densityStep at h
  dsimp only at h
  cases hu : updateMu p (updateDispersion p (updateMeanField p s (p.vec2mat v))) N
      (some (updateDispersion p (updateMeanField p s (p.vec2mat v))).mu) with
  | error e => rw [hu] at h; cases h
  | ok s1 =>
    rw [hu] at h
    obtain ⟨h1, -⟩ := Prod.mk.inj (Except.ok.inj h)
    have h2 := (C85_filling p hb hsv xtol rtol hbr _ s1 (fun k => hh v k) N _ hu).2
    have h3 := updateMu_ok p _ _ _ _ hu
    have hmu : s'.mu = s1.mu := by rw [← h1]; rfl
    have hek : s'.ekMF = (updateDispersion p (updateMeanField p s (p.vec2mat v))).ekMF := by
      rw [← h1]
      show s1.ekMF = _
      rw [h3]
    have hherm : ∀ k, (s'.ekMF k).IsHermitian := fun k => by rw [hek]; exact hh v k
    have hn : s'.ntot = (filling p.beta s'.ekMF s'.mu : ℂ) := by
      rw [hd.number, hd.rho, ← trace_thermalDensity p.beta s'.mu s'.ekMF hherm]
      congr 1
      unfold thermalDensity
      congr 1
      exact Finset.sum_congr rfl fun k _ => hd.rhok k
    rw [hn, ← Complex.ofReal_sub, Complex.norm_real, Real.norm_eq_abs, hmu, hek]
    exact h2

theorem omega0_spec [Nonempty κ] (beta : ℝ) (hb : beta ≠ 0) (mu : ℝ) {eig : Lindhard.Eig (Fin n)}
    (hs : Lindhard.EigSpec eig) (h : κ → Matrix (Fin n) (Fin n) ℂ) (hh : ∀ k, (h k).IsHermitian) :
    ((Real.exp (-beta * (Fintype.card κ : ℝ) * omega0 beta mu fun k => (eig (h k)).1) : ℝ) : ℂ)
      = ∏ k, Matrix.det (1 + NormedSpace.exp ((beta : ℂ) • -(h k - (mu : ℂ) • 1))) := by
  have hK : (Fintype.card κ : ℝ) ≠ 0 := by exact_mod_cast Fintype.card_ne_zero
  have h1 : -beta * (Fintype.card κ : ℝ) * omega0 beta mu (fun k => (eig (h k)).1)
      = ∑ k, ∑ b, Real.log (1 + Real.exp (-beta * ((eig (h k)).1 b - mu))) := by
    unfold omega0
    field_simp
  rw [h1, Real.exp_sum, Complex.ofReal_prod]
  refine Finset.prod_congr rfl fun k _ => ?_
  rw [Real.exp_sum]
  have hd := hs _ (hh k)
  have hq : Lindhard.Diag (-(h k - (mu : ℂ) • 1)) (fun i => -((eig (h k)).1 i - mu), (eig (h k)).2) := by
    refine ⟨hd.1, hd.2.1, ?_⟩
    have h2 : diagonal (fun i => ((-((eig (h k)).1 i - mu) : ℝ) : ℂ))
        = -(diagonal (fun i => ((eig (h k)).1 i : ℂ)) - (mu : ℂ) • (1 : Matrix (Fin n) (Fin n) ℂ)) := by
      rw [Matrix.smul_one_eq_diagonal, Matrix.diagonal_sub, Matrix.diagonal_neg]
      congr 1
      funext i
      push_cast
      rfl
    show -(h k - (mu : ℂ) • 1)
      = (eig (h k)).2 * diagonal (fun i => ((-((eig (h k)).1 i - mu) : ℝ) : ℂ)) * (eig (h k)).2ᴴ
    rw [h2, mul_neg, neg_mul, mul_sub, sub_mul, ← hd.2.2, Matrix.mul_smul, mul_one, Matrix.smul_mul, hd.2.1]
  rw [HfResponse.exp_of_diag beta hq, ← Lindhard.matFun_one hq, HfResponse.matFun_add]
  unfold Lindhard.matFun
  rw [Matrix.det_mul_right_comm, hd.2.1, one_mul, Matrix.det_diagonal, Complex.ofReal_prod]
  refine Finset.prod_congr rfl fun b _ => ?_
  rw [Real.exp_log (by positivity)]
  push_cast
  congr 2
  ring

theorem updateTotalEnergy_spec [Nonempty κ] [NeZero n] (p : Params n κ V) (hb : p.beta ≠ 0)
    (hs : Lindhard.EigSpec p.eig) (hsv : Lindhard.EigSpec p.eigv) (rho0 : Matrix (Fin n) (Fin n) ℂ)
    (hh : ∀ k, (p.ek k + meanField p.U rho0).IsHermitian)
    (s : State n κ) (hd : DensityOf p.U p.beta p.ek rho0 s) :
    EnergyOf p.U p.beta p.ek (updateTotalEnergy p s) ∧
    DensityOf p.U p.beta p.ek rho0 (updateTotalEnergy p s) ∧
    (updateTotalEnergy p s).mu = s.mu ∧ (updateTotalEnergy p s).ntot = s.ntot ∧
    (updateTotalEnergy p s).rho = s.rho ∧ (updateTotalEnergy p s).M = s.M
      ∧ (updateTotalEnergy p s).ekMF = s.ekMF := by
  have hherm : ∀ k, (s.ekMF k).IsHermitian := fun k => by rw [hd.bands, hd.mean]; exact hh k
  have hr : (updateTotalEnergy p s).rhok = s.rhok := by
    funext k
    rw [hd.rhok]
    exact congrFun (momentumDensity_eq p.beta s.mu hs s.ekMF hherm) k
  refine ⟨⟨?_, rfl, rfl, omega0_spec p.beta hb s.mu hsv s.ekMF hherm, rfl⟩,
    ⟨hd.mean, hd.bands, fun k => by rw [hr]; exact hd.rhok k, by rw [hr]; exact hd.rho, hd.number⟩,
    rfl, rfl, rfl, rfl, rfl⟩
  show eKin p.ek (updateTotalEnergy p s).rhok = _
  unfold eKin
  rw [div_eq_inv_mul]
  rfl

/-! ## Forward iteration -/

theorem solveLoop_spec [Nonempty κ] [NeZero n] [AddCommGroup V] [Module ℝ V] (p : Params n κ V) (nrm : V → ℝ)
    (N mixing tol : ℝ) : ∀ (fuel : ℕ) (s : State n κ) (v : V) (hist : List V) (s' : State n κ) (hist' : List V),
    solveLoop p nrm N mixing tol (fuel + 1) s v hist = .ok (s', hist') →
    ∃ (pre : List V) (last : V) (s1 : State n κ), hist' = pre ++ [last] ∧
      densityStep p s1 last (some N) = .ok (s', p.mat2vec s'.rho) ∧
      hist'.length ≤ hist.length + (fuel + 1) ∧
      (hist'.length < hist.length + (fuel + 1) →
        nrm last ≠ 0 ∧ nrm (last - p.mat2vec s'.rho) / nrm last < tol) := by
  have hnew : ∀ (s s' : State n κ) (v new : V), densityStep p s v (some N) = .ok (s', new) →
      new = p.mat2vec s'.rho := by
    intro s s' v new h
    unfold densityStep at h
    dsimp only at h
    split at h
    · cases h
    · obtain ⟨h1, h2⟩ := Prod.mk.inj (Except.ok.inj h)
      rw [← h1, ← h2]
  intro fuel
  induction fuel with
  | zero =>
    intro s v hist s' hist' h
    rw [solveLoop] at h
    cases hd : densityStep p s v (some N) with
    | error e => rw [hd] at h; cases h
    | ok q =>
      obtain ⟨s1, new⟩ := q
      rw [hd] at h
      dsimp only at h
      have hn := hnew _ _ _ _ hd
      by_cases hc : nrm v ≠ 0 ∧ nrm (v - new) / nrm v < tol
      · rw [if_pos hc] at h
        obtain ⟨rfl, rfl⟩ := Prod.mk.inj (Except.ok.inj h)
        exact ⟨hist, v, s, rfl, by rw [hd, hn], by simp, fun _ => by rw [← hn]; exact hc⟩
      · rw [if_neg hc, solveLoop] at h
        obtain ⟨rfl, rfl⟩ := Prod.mk.inj (Except.ok.inj h)
        exact ⟨hist, v, s, rfl, by rw [hd, hn], by simp, fun hl => by simp at hl⟩
  | succ fuel ih =>
    intro s v hist s' hist' h
    rw [solveLoop] at h
    cases hd : densityStep p s v (some N) with
    | error e => rw [hd] at h; cases h
    | ok q =>
      obtain ⟨s1, new⟩ := q
      rw [hd] at h
      dsimp only at h
      have hn := hnew _ _ _ _ hd
      by_cases hc : nrm v ≠ 0 ∧ nrm (v - new) / nrm v < tol
      · rw [if_pos hc] at h
        obtain ⟨rfl, rfl⟩ := Prod.mk.inj (Except.ok.inj h)
        exact ⟨hist, v, s, rfl, by rw [hd, hn], by simp, fun _ => by rw [← hn]; exact hc⟩
      · rw [if_neg hc] at h
        obtain ⟨pre, last, s2, h1, h2, h3, h4⟩ := ih _ _ _ _ _ h
        refine ⟨pre, last, s2, h1, h2, ?_, fun hl => h4 ?_⟩
        · simp only [List.length_append, List.length_singleton] at h3; omega
        · simp only [List.length_append, List.length_singleton]; omega

/-- C86: after the forward iteration all reported quantities belong to one state: the mean field of the last
recorded density matrix, its bands, their thermal density matrix at the reported chemical potential, and the
energies of that density matrix. The number of particles is the requested one up to the tolerance of the root
finder, and an iteration that stopped early reproduces its density matrix up to `tol`. -/
theorem C86_solve_iter [Nonempty κ] [NeZero n] [AddCommGroup V] [Module ℝ V] (p : Params n κ V)
    (hb : 0 < p.beta) (hs : Lindhard.EigSpec p.eig) (hsv : Lindhard.EigSpec p.eigv) (xtol rtol : ℝ)
    (hbr : BrentSpec xtol rtol p.brentq)
    (hh : ∀ v k, (p.ek k + meanField p.U (p.vec2mat v)).IsHermitian) (nrm : V → ℝ) (hn : ∀ v, 0 ≤ nrm v)
    (s s' : State n κ) (N : ℝ) (M0 : Option (Matrix (Fin n) (Fin n) ℂ)) (mu0 : Option ℝ) (nitermax : ℕ)
    (h0 : nitermax ≠ 0) (mixing tol : ℝ) (hist : List V)
    (h : solveIterState p nrm s N M0 mu0 nitermax mixing tol = .ok (s', hist)) :
    ∃ (pre : List V) (last : V), hist = pre ++ [last] ∧ hist.length ≤ nitermax ∧
      DensityOf p.U p.beta p.ek (p.vec2mat last) s' ∧ EnergyOf p.U p.beta p.ek s' ∧
      ‖s'.ntot - N‖ ≤ n * p.beta / 4 * (xtol + rtol * |s'.mu|) ∧
      (hist.length < nitermax → nrm (last - p.mat2vec s'.rho) < tol * nrm last) := by
  obtain ⟨fuel, rfl⟩ := Nat.exists_eq_succ_of_ne_zero h0
  unfold solveIterState at h
  by_cases h1 : ¬ 0 ≤ mixing
  · rw [if_pos h1] at h; cases h
  by_cases h2 : ¬ mixing ≤ 1
  · rw [if_neg h1, if_pos h2] at h; cases h
  rw [if_neg h1, if_neg h2] at h
  cases hsu : solveSetup p s N M0 mu0 with
  | error e => rw [hsu] at h; cases h
  | ok q =>
    obtain ⟨s0, v0⟩ := q
    rw [hsu] at h
    dsimp only at h
    cases hl : solveLoop p nrm N mixing tol (fuel + 1) s0 v0 [] with
    | error e => rw [Nat.succ_eq_add_one, hl] at h; cases h
    | ok q =>
      obtain ⟨s1, hist1⟩ := q
      rw [Nat.succ_eq_add_one, hl] at h
      obtain ⟨h3, h4⟩ := Prod.mk.inj (Except.ok.inj h)
      subst h4
      obtain ⟨pre, last, s2, e1, e2, e3, e4⟩ := solveLoop_spec p nrm N mixing tol _ _ _ _ _ _ hl
      have hd := (densityStep_spec p hs hh _ _ _ _ _ e2).1
      have hnum := densityStep_number p hb.le hs hsv xtol rtol hbr hh _ _ _ _ _ e2
      obtain ⟨u1, u2, u3, u4, u5, -⟩ := updateTotalEnergy_spec p hb.ne' hs hsv _ (hh last) s1 hd
      subst h3
      refine ⟨pre, last, e1, by simpa using e3, u2, u1, by rw [u3, u4]; exact hnum, fun hlt => ?_⟩
      obtain ⟨c1, c2⟩ := e4 (by simpa using hlt)
      rw [u5]
      exact (div_lt_iff₀ (lt_of_le_of_ne (hn _) (Ne.symm c1))).1 c2

theorem solveLoop_chain [Nonempty κ] [NeZero n] [AddCommGroup V] [Module ℝ V] (p : Params n κ V) (nrm : V → ℝ)
    (N mixing tol : ℝ) (R : V → V → Prop)
    (hR : ∀ (s s1 : State n κ) (v new : V), densityStep p s v (some N) = .ok (s1, new) →
      R v ((1 - mixing) • v + mixing • new)) :
    ∀ (fuel : ℕ) (s : State n κ) (v : V) (hist : List V) (s' : State n κ) (hist' : List V),
    solveLoop p nrm N mixing tol fuel s v hist = .ok (s', hist') → (hist ++ [v]).IsChain R →
    hist'.IsChain R := by
  intro fuel
  induction fuel with
  | zero =>
    intro s v hist s' hist' h hc
    rw [solveLoop] at h
    obtain ⟨-, rfl⟩ := Prod.mk.inj (Except.ok.inj h)
    exact (List.isChain_append.1 hc).1
  | succ fuel ih =>
    intro s v hist s' hist' h hc
    rw [solveLoop] at h
    cases hd : densityStep p s v (some N) with
    | error e => rw [hd] at h; cases h
    | ok q =>
      obtain ⟨s1, new⟩ := q
      rw [hd] at h
      dsimp only at h
      split_ifs at h
      · obtain ⟨-, rfl⟩ := Prod.mk.inj (Except.ok.inj h)
        exact hc
      · refine ih _ _ _ _ _ h (List.isChain_append.2 ⟨hc, List.isChain_singleton _, ?_⟩)
        intro x hx y hy
        simp only [List.getLast?_append, List.getLast?_singleton, Option.some_or, Option.mem_def,
          Option.some.injEq, List.head?_cons] at hx hy
        subst hx hy
        exact hR _ _ _ _ hd

/-- C86, the recursion of the forward iteration: every recorded vector after the first is the mixture
`(1 - mixing) v + mixing v'` of the previous vector `v` and of the vector `v'` of the thermal density matrix in
the mean field of `v`. -/
theorem C86_mixing [Nonempty κ] [NeZero n] [AddCommGroup V] [Module ℝ V] (p : Params n κ V)
    (hs : Lindhard.EigSpec p.eig)
    (hh : ∀ v k, (p.ek k + meanField p.U (p.vec2mat v)).IsHermitian) (nrm : V → ℝ)
    (s s' : State n κ) (N : ℝ) (M0 : Option (Matrix (Fin n) (Fin n) ℂ)) (mu0 : Option ℝ) (nitermax : ℕ)
    (mixing tol : ℝ) (hist : List V)
    (h : solveIterState p nrm s N M0 mu0 nitermax mixing tol = .ok (s', hist)) (i : ℕ)
    (hi : i + 1 < hist.length) :
    ∃ s1 : State n κ, DensityOf p.U p.beta p.ek (p.vec2mat hist[i]) s1 ∧
      hist[i + 1] = (1 - mixing) • hist[i] + mixing • p.mat2vec s1.rho := by
  unfold solveIterState at h
  by_cases h1 : ¬ 0 ≤ mixing
  · rw [if_pos h1] at h; cases h
  by_cases h2 : ¬ mixing ≤ 1
  · rw [if_neg h1, if_pos h2] at h; cases h
  rw [if_neg h1, if_neg h2] at h
  cases hsu : solveSetup p s N M0 mu0 with
  | error e => rw [hsu] at h; cases h
  | ok q =>
    obtain ⟨s0, v0⟩ := q
    rw [hsu] at h
    dsimp only at h
    cases hl : solveLoop p nrm N mixing tol nitermax s0 v0 [] with
    | error e => rw [hl] at h; cases h
    | ok q =>
      obtain ⟨s1, hist1⟩ := q
      rw [hl] at h
      obtain ⟨-, h4⟩ := Prod.mk.inj (Except.ok.inj h)
      subst h4
      have hc := solveLoop_chain p nrm N mixing tol
        (fun v w => ∃ s1 : State n κ, DensityOf p.U p.beta p.ek (p.vec2mat v) s1 ∧
          w = (1 - mixing) • v + mixing • p.mat2vec s1.rho)
        (fun s s1 v new hd => by
          obtain ⟨d1, d2, -⟩ := densityStep_spec p hs hh _ _ _ _ _ hd
          exact ⟨s1, d1, by rw [d2]⟩) nitermax s0 v0 [] s1 hist1 hl (List.isChain_singleton _)
      exact List.isChain_iff_getElem.1 hc i hi

/-! ## Newton solvers -/

/-- every run of the procedure ends by returning the point it evaluated last -/
def EndsAtEvaluated : Option V → Strategy V → Prop
  | last, .ret x => last = some x
  | _, .eval x next => ∀ y, EndsAtEvaluated (some x) (next y)

theorem runStrategy_spec [Nonempty κ] [NeZero n] [Sub V] (p : Params n κ V) (N : Option ℝ) (st : Strategy V) :
    ∀ (last : Option V) (s s' : State n κ) (v : V), EndsAtEvaluated last st →
    runStrategy p N st s = .ok (s', v) →
    (last = some v ∧ s' = s) ∨ ∃ s1 new, densityStep p s1 v N = .ok (s', new) := by
  induction st with
  | ret x =>
    intro last s s' v he h
    obtain ⟨h1, h2⟩ := Prod.mk.inj (Except.ok.inj h)
    subst h1 h2
    exact Or.inl ⟨he, rfl⟩
  | eval x next ih =>
    intro last s s' v he h
    rw [runStrategy] at h
    cases hd : densityStep p s x N with
    | error e => rw [hd] at h; cases h
    | ok q =>
      obtain ⟨s1, new⟩ := q
      rw [hd] at h
      rcases ih (new - x) (some x) s1 s' v (he _) h with ⟨h1, h2⟩ | h1
      · obtain rfl := Option.some.inj h1
        rw [h2]
        exact Or.inr ⟨s, new, hd⟩
      · exact Or.inr h1

theorem runStrategy_mu [Nonempty κ] [NeZero n] [Sub V] (p : Params n κ V) (hs : Lindhard.EigSpec p.eig)
    (hh : ∀ v k, (p.ek k + meanField p.U (p.vec2mat v)).IsHermitian) (st : Strategy V) :
    ∀ (s s' : State n κ) (v : V), runStrategy p none st s = .ok (s', v) → s'.mu = s.mu := by
  induction st with
  | ret x =>
    intro s s' v h
    rw [← (Prod.mk.inj (Except.ok.inj h)).1]
  | eval x next ih =>
    intro s s' v h
    rw [runStrategy] at h
    cases hd : densityStep p s x none with
    | error e => rw [hd] at h; cases h
    | ok q =>
      obtain ⟨s1, new⟩ := q
      rw [hd] at h
      rw [ih _ _ _ _ h]
      exact (densityStep_spec p hs hh _ _ _ _ _ hd).2.2 rfl

/-- the final step at the point where the state already is changes nothing -/
theorem final_step [Nonempty κ] [NeZero n] (p : Params n κ V) (hb : p.beta ≠ 0) (hs : Lindhard.EigSpec p.eig)
    (hsv : Lindhard.EigSpec p.eigv)
    (hh : ∀ v k, (p.ek k + meanField p.U (p.vec2mat v)).IsHermitian) (s s' : State n κ) (v new : V)
    (hd : DensityOf p.U p.beta p.ek (p.vec2mat v) s)
    (h : densityStep p (updateTotalEnergy p s) v none = .ok (s', new)) : s' = updateTotalEnergy p s := by
  obtain ⟨u1, u2, u3, u4, u5, u6, u7⟩ := updateTotalEnergy_spec p hb hs hsv _ (hh v) s hd
  obtain ⟨d, -, hmu⟩ := densityStep_spec p hs hh _ _ _ _ _ h
  have hM : s'.M = (updateTotalEnergy p s).M := d.mean.trans u2.mean.symm
  have hek : s'.ekMF = (updateTotalEnergy p s).ekMF := by
    funext k
    rw [d.bands, u2.bands, hM]
  have hm := hmu rfl
  have hrk : s'.rhok = (updateTotalEnergy p s).rhok := by
    funext k
    rw [d.rhok, u2.rhok, hek, hm]
  have hr : s'.rho = (updateTotalEnergy p s).rho := by rw [d.rho, u2.rho, hrk]
  have hnn : s'.ntot = (updateTotalEnergy p s).ntot := by rw [d.number, u2.number, hr]
  obtain ⟨h1, -⟩ := Prod.mk.inj (Except.ok.inj h)
  have e1 : s'.ekin = (updateTotalEnergy p s).ekin := by rw [← h1]; rfl
  have e2 : s'.eint = (updateTotalEnergy p s).eint := by rw [← h1]; rfl
  have e3 : s'.etot = (updateTotalEnergy p s).etot := by rw [← h1]; rfl
  have e4 : s'.omega0 = (updateTotalEnergy p s).omega0 := by rw [← h1]; rfl
  have e5 : s'.omega = (updateTotalEnergy p s).omega := by rw [← h1]; rfl
  clear h1 u1 u2 u3 u4 u5 u6 u7 d hmu h hd
  generalize updateTotalEnergy p s = t at *
  cases s'; cases t
  simp only at *
  subst hM hek hm hrk hr hnn e1 e2 e3 e4 e5
  rfl

/-- C86, partial: after the Newton solver at fixed number of particles all reported quantities belong to the mean
field of one density matrix and the number of particles is the requested one, if the root finder returns the
point it evaluated last. Missing: root finders that evaluate further points, see `C86_newton_violated`. -/
theorem C86_newton_partial [Nonempty κ] [NeZero n] [Sub V] (p : Params n κ V)
    (hb : 0 < p.beta) (hs : Lindhard.EigSpec p.eig) (hsv : Lindhard.EigSpec p.eigv) (xtol rtol : ℝ)
    (hbr : BrentSpec xtol rtol p.brentq)
    (hh : ∀ v k, (p.ek k + meanField p.U (p.vec2mat v)).IsHermitian) (fsolve : V → Strategy V)
    (hf : ∀ v, EndsAtEvaluated none (fsolve v)) (s s' : State n κ) (N : ℝ)
    (M0 : Option (Matrix (Fin n) (Fin n) ℂ)) (mu0 : Option ℝ) (h : solveNewton p fsolve s N M0 mu0 = .ok s') :
    ∃ v, DensityOf p.U p.beta p.ek (p.vec2mat v) s' ∧ EnergyOf p.U p.beta p.ek s' ∧
      ‖s'.ntot - N‖ ≤ n * p.beta / 4 * (xtol + rtol * |s'.mu|) := by
  unfold solveNewton at h
  cases hsu : solveSetup p s N M0 mu0 with
  | error e => rw [hsu] at h; cases h
  | ok q =>
    obtain ⟨s0, v0⟩ := q
    rw [hsu] at h
    dsimp only at h
    cases hr : runStrategy p (some N) (fsolve v0) s0 with
    | error e => rw [hr] at h; cases h
    | ok q =>
      obtain ⟨s1, v⟩ := q
      rw [hr] at h
      dsimp only at h
      cases hd : densityStep p (updateTotalEnergy p s1) v none with
      | error e => rw [hd] at h; cases h
      | ok q =>
        obtain ⟨s2, new⟩ := q
        rw [hd] at h
        obtain rfl := Except.ok.inj h
        rcases runStrategy_spec p _ _ _ _ _ _ (hf v0) hr with ⟨h1, -⟩ | ⟨s3, new', h1⟩
        · cases h1
        · have hde := (densityStep_spec p hs hh _ _ _ _ _ h1).1
          have hnum := densityStep_number p hb.le hs hsv xtol rtol hbr hh _ _ _ _ _ h1
          obtain ⟨u1, u2, u3, u4, -⟩ := updateTotalEnergy_spec p hb.ne' hs hsv _ (hh v) s1 hde
          rw [final_step p hb.ne' hs hsv hh s1 s2 v new hde hd]
          exact ⟨v, u2, u1, by rw [u3, u4]; exact hnum⟩

theorem solveNewtonMu_run [Nonempty κ] [NeZero n] [Sub V] (p : Params n κ V) (fsolve : V → Strategy V)
    (s : State n κ) (mu : ℝ) (M0 : Option (Matrix (Fin n) (Fin n) ℂ)) :
    ∃ s0 : State n κ, s0.mu = mu ∧ solveNewtonMu p fsolve s mu M0
      = match runStrategy p none (fsolve (p.mat2vec s0.rho)) s0 with
        | .error e => .error e
        | .ok (s, v) =>
          match densityStep p (updateTotalEnergy p s) v none with
          | .error e => .error e
          | .ok (s, _) => .ok s := ⟨_, rfl, rfl⟩

/-- C86: after the Newton solver at fixed chemical potential the reported density belongs to the mean field of
the returned point at that chemical potential, for every root finder. The energies belong to it as well if the
root finder returns the point it evaluated last. -/
theorem C86_newton_mu [Nonempty κ] [NeZero n] [Sub V] (p : Params n κ V)
    (hb : 0 < p.beta) (hs : Lindhard.EigSpec p.eig) (hsv : Lindhard.EigSpec p.eigv)
    (hh : ∀ v k, (p.ek k + meanField p.U (p.vec2mat v)).IsHermitian) (fsolve : V → Strategy V)
    (s s' : State n κ) (mu : ℝ) (M0 : Option (Matrix (Fin n) (Fin n) ℂ))
    (h : solveNewtonMu p fsolve s mu M0 = .ok s') :
    s'.mu = mu ∧ ∃ v, DensityOf p.U p.beta p.ek (p.vec2mat v) s' ∧
      ((∀ v, EndsAtEvaluated none (fsolve v)) → EnergyOf p.U p.beta p.ek s') := by
  obtain ⟨s0, hmu0, hrun⟩ := solveNewtonMu_run p fsolve s mu M0
  rw [hrun] at h
  cases hr : runStrategy p none (fsolve (p.mat2vec s0.rho)) s0 with
  | error e => rw [hr] at h; cases h
  | ok q =>
    obtain ⟨s1, v⟩ := q
    rw [hr] at h
    dsimp only at h
    cases hd : densityStep p (updateTotalEnergy p s1) v none with
    | error e => rw [hd] at h; cases h
    | ok q =>
      obtain ⟨s2, new⟩ := q
      rw [hd] at h
      obtain rfl := Except.ok.inj h
      obtain ⟨d1, -, d3⟩ := densityStep_spec p hs hh _ _ _ _ _ hd
      have hm : s2.mu = mu := by
        rw [d3 rfl, ← hmu0, ← runStrategy_mu p hs hh _ _ _ _ hr]
        rfl
      refine ⟨hm, v, d1, fun hf => ?_⟩
      rcases runStrategy_spec p _ _ _ _ _ _ (hf _) hr with ⟨h1, -⟩ | ⟨s3, new', h1⟩
      · cases h1
      · have hde := (densityStep_spec p hs hh _ _ _ _ _ h1).1
        rw [final_step p hb.ne' hs hsv hh s1 s2 v new hde hd]
        exact (updateTotalEnergy_spec p hb.ne' hs hsv _ (hh v) s1 hde).1

/-! ## Examples and the violation -/

/-- a Hubbard atom at unit interaction and temperature in the vectorisation of `HartreeSolver`
(`mat2vec`, `vec2mat` of hf_solver.py:553-560) -/
def atomParams (eig : Lindhard.Eig (Fin 2)) (brentq : Brentq) : Params 2 (Fin 1) (Fin 2 → ℝ) :=
  { beta := 1, muMin := none, muMax := none, ek := fun _ => 0, U := HfResponse.hubTensor,
    mat2vec := fun m i => (m i i).re, vec2mat := fun v => diagonal fun i => (v i : ℂ), eigv := eig, eig := eig,
    brentq := brentq }

/-- state before the first call -/
def atomState : State 2 (Fin 1) := ⟨0, 0, fun _ => 0, fun _ => 0, 0, 0, 0, 0, 0, 0, 0⟩

theorem atom_meanField (v : Fin 2 → ℝ) : meanField HfResponse.hubTensor (diagonal fun i => (v i : ℂ))
    = diagonal fun i => (v (1 - i) : ℂ) := by
  ext b a
  fin_cases a <;> fin_cases b <;> simp [meanField, HfResponse.hubTensor, Fin.sum_univ_two, Matrix.diagonal]

theorem atom_hermitian (eig : Lindhard.Eig (Fin 2)) (brentq : Brentq) (v : Fin 2 → ℝ) (k : Fin 1) :
    ((atomParams eig brentq).ek k
      + meanField (atomParams eig brentq).U ((atomParams eig brentq).vec2mat v)).IsHermitian := by
  show (0 + meanField HfResponse.hubTensor (diagonal fun i => (v i : ℂ))).IsHermitian
  rw [zero_add, atom_meanField, Matrix.IsHermitian, Matrix.diagonal_conjTranspose]
  congr 1
  funext i
  simp

theorem atom_flat (v : Fin 2 → ℝ) (x : ℝ) (hv : v = fun _ => x) :
    (0 : Matrix (Fin 2) (Fin 2) ℂ) + meanField HfResponse.hubTensor (diagonal fun i => (v i : ℂ)) = (x : ℂ) • 1 := by
  rw [zero_add, atom_meanField, hv, Matrix.smul_one_eq_diagonal]

/-- density matrix of a level at `e` with chemical potential `mu` -/
theorem atom_density {eig : Lindhard.Eig (Fin 2)} (hs : Lindhard.EigSpec eig) (brentq : Brentq)
    (s : State 2 (Fin 1)) (e : ℝ) (hflat : ∀ k, s.ekMF k = (e : ℂ) • 1) :
    (updateDensity (atomParams eig brentq) s).rho = (fermi 1 (e - s.mu) : ℂ) • 1 := by
  have hh : ∀ k, (s.ekMF k).IsHermitian := fun k => by
    rw [hflat k]; simp [Matrix.IsHermitian, Matrix.conjTranspose_smul]
  have h1 : (updateDensity (atomParams eig brentq) s).rho
      = thermalDensity 1 s.ekMF s.mu := density_eq 1 s.mu hs s.ekMF hh
  rw [h1, thermalDensity]
  simp only [Finset.univ_unique, Finset.sum_singleton, Fintype.card_unique, Nat.cast_one, inv_one, one_smul, hflat]
  rw [← sub_smul, ← Complex.ofReal_sub, HfResponse.fermiMatrix_scalar]

/-- one step from `(x, x)` -/
theorem atom_step {eig : Lindhard.Eig (Fin 2)} (hs : Lindhard.EigSpec eig) {brentq : Brentq}
    (hbr : BrentSpec 0 0 brentq) (s : State 2 (Fin 1)) (x : ℝ) :
    ∃ s', densityStep (atomParams eig brentq) s (fun _ => x) (some 1) = .ok (s', fun _ => 1 / 2) ∧ s'.mu = x := by
  have hflat : ∀ k : Fin 1, (updateDispersion (atomParams eig brentq) (updateMeanField (atomParams eig brentq) s
      ((atomParams eig brentq).vec2mat fun _ => x))).ekMF k = (x : ℂ) • 1 := fun k => atom_flat _ x rfl
  have hu := fun mu0 => updateMu_flat (atomParams eig brentq) hs hbr _ x hflat rfl rfl mu0
  have h1 : ((2 : ℕ) : ℝ) / 2 = 1 := by norm_num
  simp only [h1] at hu
  unfold densityStep
  dsimp only
  rw [hu]
  refine ⟨updateDensity (atomParams eig brentq) { updateDispersion (atomParams eig brentq) (updateMeanField
    (atomParams eig brentq) s ((atomParams eig brentq).vec2mat fun _ => x)) with mu := x }, ?_, rfl⟩
  refine congrArg Except.ok (Prod.ext rfl (funext fun i => ?_))
  show ((updateDensity (atomParams eig brentq) _).rho i i).re = _
  rw [atom_density hs brentq _ x ?_]
  · simp [fermi]
    norm_num
  · exact hflat

theorem atom_setup {eig : Lindhard.Eig (Fin 2)} (hs : Lindhard.EigSpec eig) {brentq : Brentq}
    (hbr : BrentSpec 0 0 brentq) (s : State 2 (Fin 1)) (m : ℝ) :
    ∃ s', solveSetup (atomParams eig brentq) s 1 none (some m) = .ok (s', fun _ => 1 / 2) := by
  have hflat : ∀ k : Fin 1, (updateDispersion (atomParams eig brentq) { s with mu := m, M := 0 }).ekMF k
      = ((0 : ℝ) : ℂ) • 1 := fun k => by simp [updateDispersion, meanFieldDispersion, atomParams]
  have hu := fun mu0 => updateMu_flat (atomParams eig brentq) hs hbr _ 0 hflat rfl rfl mu0
  have h1 : ((2 : ℕ) : ℝ) / 2 = 1 := by norm_num
  simp only [h1] at hu
  unfold solveSetup
  dsimp only
  rw [hu]
  refine ⟨updateDensity (atomParams eig brentq) { updateDispersion (atomParams eig brentq)
    { s with mu := m, M := 0 } with mu := 0 }, ?_⟩
  refine congrArg Except.ok (Prod.ext rfl (funext fun i => ?_))
  show ((updateDensity (atomParams eig brentq) _).rho i i).re = _
  rw [atom_density hs brentq _ 0 ?_]
  · simp [fermi]
    norm_num
  · exact hflat

/-- the hypotheses of the C85 theorems are met: for the atom in a mean field of one half the search at one
particle succeeds, and the one at half a particle is refused -/
example {eig : Lindhard.Eig (Fin 2)} (hs : Lindhard.EigSpec eig) {brentq : Brentq} (hbr : BrentSpec 0 0 brentq) :
    ∃ s : State 2 (Fin 1), (∀ k, (s.ekMF k).IsHermitian) ∧ s.ekMF ≠ 0 ∧
      (∃ s', updateMu (atomParams eig brentq) s 1 none = .ok s') ∧
      updateMu (atomParams eig brentq) s (1 / 2) none = .error "ValueError" ∧
      -- with a wider range given by the user it is accepted
      (∃ s', updateMu { atomParams eig brentq with muMin := some (-100), muMax := some 100 } s (1 / 2) none = .ok s') := by
  have hflat : ∀ k : Fin 1, ({ atomState with ekMF := fun _ => ((1 / 2 : ℝ) : ℂ) • 1 } : State 2 (Fin 1)).ekMF k
      = ((1 / 2 : ℝ) : ℂ) • 1 := fun _ => rfl
  obtain ⟨hherm, -⟩ := flat_range (atomParams eig brentq) hs _ (1 / 2) hflat
  refine ⟨{ atomState with ekMF := fun _ => ((1 / 2 : ℝ) : ℂ) • 1 }, hherm, ?_, ?_, ?_, ?_⟩
  · intro h
    have := congrFun (congrFun (congrFun h 0) 0) 0
    simp at this
  · have hu := updateMu_flat (atomParams eig brentq) hs hbr _ (1 / 2) hflat rfl rfl none
    have h1 : ((2 : ℕ) : ℝ) / 2 = 1 := by norm_num
    rw [h1] at hu
    exact ⟨_, hu⟩
  · exact (C85_flat_violated (atomParams eig brentq) one_pos hs 0 0 hbr _ (1 / 2) hflat rfl rfl (1 / 2)
      (by norm_num) (by norm_num) (by norm_num) none).1
  · refine (C85_range { atomParams eig brentq with muMin := some (-100), muMax := some 100 } hs 0 0 hbr
      { atomState with ekMF := fun _ => ((1 / 2 : ℝ) : ℂ) • 1 } hherm (1 / 2) none (-100) 100 rfl rfl).2 ?_
    have hf : ∀ mu : ℝ, filling (n := 2) (κ := Fin 1) 1 (fun _ => ((1 / 2 : ℝ) : ℂ) • 1) mu
        = 2 * fermi 1 (1 / 2 - mu) := by
      intro mu
      unfold filling
      dsimp only
      rw [← sub_smul, ← Complex.ofReal_sub, HfResponse.fermiMatrix_scalar]
      simp
      ring
    show (filling (n := 2) (κ := Fin 1) 1 (fun _ => ((1 / 2 : ℝ) : ℂ) • 1) (-100) - 1 / 2)
      * (filling (n := 2) (κ := Fin 1) 1 (fun _ => ((1 / 2 : ℝ) : ℂ) • 1) 100 - 1 / 2) ≤ 0
    rw [hf, hf]
    refine mul_nonpos_of_nonpos_of_nonneg ?_ ?_
    · unfold fermi
      have h3 : (3 : ℝ) ≤ Real.exp (1 * (1 / 2 - -100)) := by
        have := Real.add_one_le_exp (1 * (1 / 2 - -100) : ℝ)
        linarith
      have : 1 / (Real.exp (1 * (1 / 2 - -100)) + 1) ≤ 1 / 4 :=
        one_div_le_one_div_of_le (by norm_num) (by linarith)
      linarith
    · unfold fermi
      have h3 : Real.exp (1 * (1 / 2 - 100)) ≤ 1 := Real.exp_le_one_iff.2 (by norm_num)
      have : (1 : ℝ) / 2 ≤ 1 / (Real.exp (1 * (1 / 2 - 100)) + 1) :=
        one_div_le_one_div_of_le (by positivity) (by linarith)
      linarith

/-- `C85_default_range`: bottom and top of a band -/
example (s : State 1 (Fin 2)) (hs : ∀ k, s.ekMF k = fun _ _ => ((k : ℕ) : ℂ)) :
    IsLeast {x : ℝ | ∃ k, (x : ℂ) ∈ spectrum ℂ (s.ekMF k)} 0 ∧
    IsGreatest {x : ℝ | ∃ k, (x : ℂ) ∈ spectrum ℂ (s.ekMF k)} 1 := by
  have hsp : ∀ k, spectrum ℂ (s.ekMF k) = {((k : ℕ) : ℂ)} := by
    intro k
    have : s.ekMF k = algebraMap ℂ (Matrix (Fin 1) (Fin 1) ℂ) ((k : ℕ) : ℂ) := by
      rw [hs]
      ext i j
      rw [Subsingleton.elim i j]
      simp [Matrix.algebraMap_matrix_apply]
    rw [this, spectrum.scalar_eq]
  simp only [hsp, Set.mem_singleton_iff]
  refine ⟨⟨⟨0, by simp⟩, ?_⟩, ⟨⟨1, by simp⟩, ?_⟩⟩
  · rintro x ⟨k, hk⟩
    have : x = ((k : ℕ) : ℝ) := by exact_mod_cast hk
    rw [this]; positivity
  · rintro x ⟨k, hk⟩
    have : x = ((k : ℕ) : ℝ) := by exact_mod_cast hk
    rw [this]
    have := k.2
    exact_mod_cast Nat.lt_succ_iff.1 this

/-- the hypotheses of `C86_solve_iter` and `C86_newton_partial` are met by the half filled Hubbard atom -/
example : ∃ (p : Params 2 (Fin 1) (Fin 2 → ℝ)) (s' : State 2 (Fin 1)) (hist : List (Fin 2 → ℝ)),
    0 < p.beta ∧ Lindhard.EigSpec p.eig ∧ Lindhard.EigSpec p.eigv ∧ BrentSpec 0 0 p.brentq ∧
    (∀ v k, (p.ek k + meanField p.U (p.vec2mat v)).IsHermitian) ∧
    solveIterState p (fun v => ‖v‖) atomState 1 none (some 0) 5 (1 / 2) (1 / 1000) = .ok (s', hist) ∧
    hist.length < 5 ∧ s'.M ≠ 0 := by
  obtain ⟨eig, hs⟩ := Lindhard.exists_eigSpec (o := Fin 2)
  obtain ⟨brentq, hbr⟩ := exists_brent 0 0 le_rfl le_rfl
  obtain ⟨s0, h0⟩ := atom_setup hs hbr atomState 0
  obtain ⟨s1, h1, -⟩ := atom_step hs hbr s0 (1 / 2)
  refine ⟨atomParams eig brentq, updateTotalEnergy (atomParams eig brentq) s1, [fun _ => 1 / 2], one_pos, hs, hs,
    hbr, atom_hermitian eig brentq, ?_, by simp, ?_⟩
  · unfold solveIterState
    rw [if_neg (by norm_num), if_neg (by norm_num), h0]
    dsimp only
    rw [solveLoop]
    rw [h1]
    dsimp only
    rw [if_pos]
    · rfl
    · refine ⟨?_, by simp⟩
      rw [pi_norm_const]
      norm_num
  · have hd := (densityStep_spec (atomParams eig brentq) hs (atom_hermitian eig brentq) _ _ _ _ _ h1).1
    show s1.M ≠ 0
    intro hM
    have h2 := hd.mean
    rw [hM] at h2
    have h3 := congrFun (congrFun h2 0) 0
    have h4 : meanField (atomParams eig brentq).U ((atomParams eig brentq).vec2mat fun _ => 1 / 2)
        = diagonal fun _ => ((1 / 2 : ℝ) : ℂ) := atom_meanField _
    rw [h4] at h3
    simp at h3

example : EndsAtEvaluated none (Strategy.eval (0 : ℝ) fun y => .eval (1 + y) fun _ => .ret (1 + y)) :=
  fun _ _ => rfl

/-- C86 is violated for a root finder that evaluates a point it then rejects: here it evaluates the solution
`(1/2, 1/2)` of the half filled Hubbard atom, then the point `(1, 1)`, and returns the solution. The chemical
potential is the one of the rejected point, and the reported number of particles is not the requested one. -/
theorem C86_newton_violated : ∃ (p : Params 2 (Fin 1) (Fin 2 → ℝ)) (fsolve : (Fin 2 → ℝ) → Strategy (Fin 2 → ℝ))
    (s' : State 2 (Fin 1)),
    Lindhard.EigSpec p.eig ∧ Lindhard.EigSpec p.eigv ∧ BrentSpec 0 0 p.brentq ∧
    -- the root finder returns a solution for every starting point
    (∀ v (s t : State 2 (Fin 1)) r, runStrategy p (some 1) (fsolve v) s = .ok (t, r) →
      ∀ u, ∃ u', densityStep p u r (some 1) = .ok (u', r)) ∧
    solveNewton p fsolve atomState 1 none (some 0) = .ok s' ∧ s'.ntot ≠ 1 := by
  obtain ⟨eig, hs⟩ := Lindhard.exists_eigSpec (o := Fin 2)
  obtain ⟨brentq, hbr⟩ := exists_brent 0 0 le_rfl le_rfl
  obtain ⟨s0, h0⟩ := atom_setup hs hbr atomState 0
  obtain ⟨s1, h1, -⟩ := atom_step hs hbr s0 (1 / 2)
  obtain ⟨s2, h2, hm2⟩ := atom_step hs hbr s1 1
  let fs : (Fin 2 → ℝ) → Strategy (Fin 2 → ℝ) := fun _ =>
    .eval (fun _ => 1 / 2) fun _ => .eval (fun _ => 1) fun _ => .ret fun _ => 1 / 2
  have hrun : ∀ s, ∃ t, runStrategy (atomParams eig brentq) (some 1) (fs 0) s = .ok (t, fun _ => 1 / 2) := by
    intro s
    obtain ⟨t1, g1, -⟩ := atom_step hs hbr s (1 / 2)
    obtain ⟨t2, g2, -⟩ := atom_step hs hbr t1 1
    refine ⟨t2, ?_⟩
    simp only [fs, runStrategy, g1, g2]
  have hfin : ∃ s3 new, densityStep (atomParams eig brentq) (updateTotalEnergy (atomParams eig brentq) s2)
      (fun _ => 1 / 2) none = .ok (s3, new) := ⟨_, _, rfl⟩
  obtain ⟨s3, new, h3⟩ := hfin
  refine ⟨atomParams eig brentq, fs, s3, hs, hs, hbr, ?_, ?_, ?_⟩
  · intro v s t r hr u
    obtain ⟨t', ht'⟩ := hrun s
    have hr' : runStrategy (atomParams eig brentq) (some 1) (fs 0) s = .ok (t, r) := hr
    rw [ht'] at hr'
    obtain ⟨-, h5⟩ := Prod.mk.inj (Except.ok.inj hr')
    obtain ⟨u', hu', -⟩ := atom_step hs hbr u (1 / 2)
    exact ⟨u', by rw [← h5]; exact hu'⟩
  · unfold solveNewton
    rw [h0]
    simp only [fs, runStrategy, h1, h2, h3]
  · obtain ⟨d, -, hmu⟩ := densityStep_spec (atomParams eig brentq) hs (atom_hermitian eig brentq) _ _ _ _ _ h3
    have hm : s3.mu = 1 := by rw [hmu rfl, ← hm2]; rfl
    have hflat : ∀ k, s3.ekMF k = ((1 / 2 : ℝ) : ℂ) • 1 := by
      intro k
      rw [d.bands, d.mean]
      exact atom_flat _ (1 / 2) rfl
    have hr : s3.rho = (fermi 1 (1 / 2 - 1) : ℂ) • 1 := by
      have h4 := (Prod.mk.inj (Except.ok.inj h3)).1
      have h5 : (updateDispersion (atomParams eig brentq) (updateMeanField (atomParams eig brentq)
          (updateTotalEnergy (atomParams eig brentq) s2) ((atomParams eig brentq).vec2mat fun _ => 1 / 2))).mu = 1 :=
        hm2
      rw [← h4, atom_density hs brentq _ (1 / 2) ?_, h5]
      intro k
      exact atom_flat _ (1 / 2) rfl
    rw [d.number, hr, Matrix.trace_smul, Matrix.trace_one]
    intro hc
    have hc' : fermi 1 (1 / 2 - 1) * 2 = 1 := by
      have : ((fermi 1 (1 / 2 - 1) * 2 : ℝ) : ℂ) = ((1 : ℝ) : ℂ) := by
        simpa using hc
      exact_mod_cast this
    have h0' : fermi 1 0 = 1 / 2 := by unfold fermi; norm_num
    have hlt : fermi 1 0 < fermi 1 (1 / 2 - 1) := fermi_strictAnti 1 one_pos (by norm_num)
    rw [h0'] at hlt
    linarith

end Verif.HartreeFock
