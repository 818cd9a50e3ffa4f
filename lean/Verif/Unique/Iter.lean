import Verif.Unique.Exists

/-!
# C132: at weak coupling `solve_iter` converges to the solution
-/

set_option linter.unusedSectionVars false

noncomputable section

namespace Verif.Unique

open Complex Matrix Verif.HartreeFock Verif.Subsystem

variable {n : ℕ} {κ V : Type*} [Fintype κ] [Nonempty κ] [NeZero n] [AddCommGroup V] [Module ℝ V]

/-- what the vectors stand for: all hermitian matrices, linearly, with a norm between two multiples of the Frobenius norm -/
structure VecOk (p : Params n κ V) (nrm : V → ℝ) (c1 c2 : ℝ) : Prop where
  herm : ∀ v, (p.vec2mat v).IsHermitian
  comb : ∀ (a b : ℝ) v w, p.vec2mat (a • v + b • w) = (a : ℂ) • p.vec2mat v + (b : ℂ) • p.vec2mat w
  back : ∀ X : Matrix (Fin n) (Fin n) ℂ, X.IsHermitian → p.vec2mat (p.mat2vec X) = X
  pos : 0 < c1
  lower : ∀ v, c1 * size (p.vec2mat v) ≤ nrm v
  upper : ∀ v, nrm v ≤ c2 * size (p.vec2mat v)

/-- a solver at weak coupling, with working library routines -/
structure WeakSolver (p : Params n κ V) (c : ℝ) : Prop where
  beta : 0 < p.beta
  eig : Lindhard.EigSpec p.eig
  eigv : Lindhard.EigSpec p.eigv
  brentq : BrentSpec 0 0 p.brentq
  ek : ∀ k, (p.ek k).IsHermitian
  bounded : Bounded p.U c
  weak : p.beta * c / 4 < 1

variable {p : Params n κ V} {nrm : V → ℝ} {c c1 c2 : ℝ} {N : ℝ} {rho : Matrix (Fin n) (Fin n) ℂ} {mu : ℝ}

theorem WeakSolver.q0 (h : WeakSolver p c) : 0 ≤ p.beta * c / 4 := by
  have := h.bounded.1
  have := h.beta
  positivity

theorem VecOk.sub (hv : VecOk p nrm c1 c2) (v w : V) : p.vec2mat (v - w) = p.vec2mat v - p.vec2mat w := by
  have := hv.comb 1 (-1) v w
  rw [one_smul, neg_smul, one_smul, ← sub_eq_add_neg, Complex.ofReal_one, one_smul, Complex.ofReal_neg, Complex.ofReal_one, neg_smul,
    one_smul, ← sub_eq_add_neg] at this
  exact this

theorem VecOk.c2_nonneg (hv : VecOk p nrm c1 c2) {v : V} (h0 : p.vec2mat v ≠ 0) : 0 ≤ c2 := by
  have h1 := (hv.lower v).trans (hv.upper v)
  have h2 : 0 < size (p.vec2mat v) := lt_of_le_of_ne (size_nonneg _) fun h => h0 (size_eq_zero h.symm)
  have h3 := hv.pos
  have := le_of_mul_le_mul_right h1 h2
  linarith

/-- one step: the new density matrix is hermitian, closer to the solution, and has the right number of particles -/
theorem step_close (h : WeakSolver p c) (hv : VecOk p nrm c1 c2) (hr : rho.IsHermitian) (ht : Matrix.trace rho = (N : ℂ))
    (hs : Solution p.U p.beta mu p.ek rho) {s s' : State n κ} {v new : V} (hd : densityStep p s v (some N) = .ok (s', new)) :
    new = p.mat2vec s'.rho ∧ s'.rho.IsHermitian ∧ Matrix.trace s'.rho = (N : ℂ) ∧ DensityOf p.U p.beta p.ek (p.vec2mat v) s' ∧
      size (s'.rho - rho) ≤ p.beta * c / 4 * size (p.vec2mat v - rho) := by
  have hh : ∀ v k, (p.ek k + meanField p.U (p.vec2mat v)).IsHermitian := fun v k => (h.ek k).add (h.bounded.2 _ (hv.herm v)).1
  obtain ⟨d1, d2, -⟩ := densityStep_spec p h.eig hh s s' v new (some N) hd
  have d3 := densityStep_number p h.beta.le h.eig h.eigv 0 0 h.brentq hh s s' v new N hd
  rw [zero_mul, add_zero, mul_zero] at d3
  have d4 : Matrix.trace s'.rho = (N : ℂ) := by
    rw [← d1.number]
    exact sub_eq_zero.1 (norm_le_zero_iff.1 d3)
  have e : s'.rho = thermalDensity p.beta (fun k => p.ek k + meanField p.U (p.vec2mat v)) s'.mu := by
    rw [d1.rho]
    unfold thermalDensity
    congr 1
    refine Finset.sum_congr rfl fun k _ => ?_
    rw [d1.rhok, d1.bands, d1.mean]
  refine ⟨d2, ?_, d4, d1, ?_⟩
  · rw [e]
    exact thermal_hermitian p.beta (hh v) s'.mu
  · have := C132_contraction h.beta h.bounded h.ek hr (hv.herm v) (mu := mu) (mu' := s'.mu)
      (Or.inr (by rw [← e, sol_eq hs, ht, d4]))
    rwa [← e, sol_eq hs] at this

/-- the loop stops -/
theorem loop_stops (h : WeakSolver p c) (hv : VecOk p nrm c1 c2) (hr : rho.IsHermitian) (ht : Matrix.trace rho = (N : ℂ))
    (hs : Solution p.U p.beta mu p.ek rho) (hN : N ≠ 0) {mixing tol : ℝ} (hm0 : 0 < mixing) (hm1 : mixing ≤ 1) (htol : 0 < tol)
    (k : ℕ) : ∀ (fuel : ℕ) (s : State n κ) (v : V) (hist : List V) (s' : State n κ) (hist' : List V) (d : ℝ),
      size (p.vec2mat v - rho) ≤ d →
      (1 + p.beta * c / 4) * c2 * ((1 - mixing + mixing * (p.beta * c / 4)) ^ k * d)
        < tol * c1 * (size rho - (1 - mixing + mixing * (p.beta * c / 4)) ^ k * d) →
      solveLoop p nrm N mixing tol fuel s v hist = .ok (s', hist') → hist'.length ≤ hist.length + k + 1 := by
  set q := p.beta * c / 4 with hqd
  have hq0 : 0 ≤ q := h.q0
  have hq1 : q < 1 := h.weak
  have hc1 := hv.pos
  have hrho : rho ≠ 0 := by
    intro h0
    rw [h0, Matrix.trace_zero] at ht
    exact hN (by exact_mod_cast ht.symm)
  have hc2 : 0 ≤ c2 := hv.c2_nonneg (v := p.mat2vec rho) (by rw [hv.back rho hr]; exact hrho)
  induction k with
  | zero =>
    intro fuel s v hist s' hist' d hd hk hl
    cases fuel with
    | zero =>
      rw [solveLoop] at hl
      obtain ⟨-, rfl⟩ := Prod.mk.inj (Except.ok.inj hl)
      omega
    | succ fuel =>
      rw [solveLoop] at hl
      cases hst : densityStep p s v (some N) with
      | error e => rw [hst] at hl; cases hl
      | ok x =>
        obtain ⟨s1, new⟩ := x
        rw [hst] at hl
        dsimp only at hl
        obtain ⟨e1, e2, e3, e4, e5⟩ := step_close h hv hr ht hs hst
        rw [← hqd] at e5
        rw [pow_zero, one_mul] at hk
        have hd0 : 0 ≤ d := (size_nonneg _).trans hd
        have hx : size rho - d ≤ size (p.vec2mat v) := by
          have := size_sub_le rho (p.vec2mat v) 0
          rw [sub_zero, sub_zero, size_sub_comm] at this
          linarith
        have hpos : 0 < size rho - d := by
          have h1 : 0 ≤ (1 + q) * c2 * d := by positivity
          have h2 : 0 < tol * c1 * (size rho - d) := lt_of_le_of_lt h1 hk
          exact pos_of_mul_pos_right h2 (by positivity)
        have hnv : 0 < nrm v := lt_of_lt_of_le (mul_pos hc1 (lt_of_lt_of_le hpos hx)) (hv.lower v)
        have hnd : nrm (v - new) ≤ c2 * ((1 + q) * d) := by
          refine (hv.upper _).trans (mul_le_mul_of_nonneg_left ?_ hc2)
          rw [hv.sub, e1, hv.back _ e2]
          have h1 := size_sub_le (p.vec2mat v) rho s1.rho
          rw [size_sub_comm rho] at h1
          have h2 := mul_le_mul_of_nonneg_left hd hq0
          linarith
        have hstop : nrm v ≠ 0 ∧ nrm (v - new) / nrm v < tol := by
          refine ⟨hnv.ne', (div_lt_iff₀ hnv).2 ?_⟩
          have h1 := hv.lower v
          have h2 : c1 * (size rho - d) ≤ nrm v := (mul_le_mul_of_nonneg_left hx hc1.le).trans h1
          have h3 := mul_le_mul_of_nonneg_left h2 htol.le
          linarith
        rw [if_pos hstop] at hl
        obtain ⟨-, rfl⟩ := Prod.mk.inj (Except.ok.inj hl)
        simp
  | succ k ih =>
    intro fuel s v hist s' hist' d hd hk hl
    cases fuel with
    | zero =>
      rw [solveLoop] at hl
      obtain ⟨-, rfl⟩ := Prod.mk.inj (Except.ok.inj hl)
      omega
    | succ fuel =>
      rw [solveLoop] at hl
      cases hst : densityStep p s v (some N) with
      | error e => rw [hst] at hl; cases hl
      | ok x =>
        obtain ⟨s1, new⟩ := x
        rw [hst] at hl
        dsimp only at hl
        obtain ⟨e1, e2, e3, e4, e5⟩ := step_close h hv hr ht hs hst
        rw [← hqd] at e5
        by_cases hstop : nrm v ≠ 0 ∧ nrm (v - new) / nrm v < tol
        · rw [if_pos hstop] at hl
          obtain ⟨-, rfl⟩ := Prod.mk.inj (Except.ok.inj hl)
          simp
        · rw [if_neg hstop] at hl
          have hd' : size (p.vec2mat ((1 - mixing) • v + mixing • new) - rho) ≤ (1 - mixing + mixing * q) * d := by
            rw [hv.comb, e1, hv.back _ e2]
            have e : ((1 - mixing : ℝ) : ℂ) • p.vec2mat v + (mixing : ℂ) • s1.rho - rho
                = ((1 - mixing : ℝ) : ℂ) • (p.vec2mat v - rho) + (mixing : ℂ) • (s1.rho - rho) := by
              push_cast
              simp only [smul_sub, sub_smul, one_smul]
              abel
            rw [e]
            refine (size_add_le _ _).trans ?_
            rw [size_smul, size_smul, abs_of_nonneg (by linarith), abs_of_pos hm0]
            have h1 := mul_le_mul_of_nonneg_left hd (show 0 ≤ 1 - mixing by linarith)
            have h2 := mul_le_mul_of_nonneg_left e5 hm0.le
            have h3 := mul_le_mul_of_nonneg_left hd (mul_nonneg hm0.le hq0)
            nlinarith
          have := ih fuel s1 _ _ s' hist' ((1 - mixing + mixing * q) * d) hd' (by
            rw [show (1 - mixing + mixing * q) ^ k * ((1 - mixing + mixing * q) * d) = (1 - mixing + mixing * q) ^ (k + 1) * d by ring]
            exact hk) hl
          rw [List.length_append, List.length_singleton] at this
          omega

/-- C132: at weak coupling `solve_iter` stops by itself, for every start, tolerance and mixing, after a number of passes that does not
depend on `nitermax`, and the density matrix it reports is close to the only solution with this number of particles. -/
theorem C132_solve_iter (h : WeakSolver p c) (hv : VecOk p nrm c1 c2) (hr : rho.IsHermitian) (ht : Matrix.trace rho = (N : ℂ))
    (hs : Solution p.U p.beta mu p.ek rho) (hN : N ≠ 0) {mixing tol : ℝ} (hm0 : 0 < mixing) (hm1 : mixing ≤ 1) (htol : 0 < tol)
    (s : State n κ) (M0 : Option (Matrix (Fin n) (Fin n) ℂ)) (mu0 : Option ℝ) :
    ∃ n0, ∀ nitermax s' hist, n0 < nitermax → solveIterState p nrm s N M0 mu0 nitermax mixing tol = .ok (s', hist) →
      hist.length ≤ n0 ∧ ∃ last ∈ hist, size (s'.rho - rho)
        ≤ p.beta * c / 4 / (1 - p.beta * c / 4) * (tol * (c2 / c1) * size (p.vec2mat last)) := by
  set q := p.beta * c / 4 with hqd
  have hq0 : 0 ≤ q := h.q0
  have hq1 : q < 1 := h.weak
  have hc1 := hv.pos
  have hrho : rho ≠ 0 := by
    intro h0
    rw [h0, Matrix.trace_zero] at ht
    exact hN (by exact_mod_cast ht.symm)
  have hsr : 0 < size rho := lt_of_le_of_ne (size_nonneg _) fun h => hrho (size_eq_zero h.symm)
  have hc2 : 0 ≤ c2 := hv.c2_nonneg (v := p.mat2vec rho) (by rw [hv.back rho hr]; exact hrho)
  have hh : ∀ v k, (p.ek k + meanField p.U (p.vec2mat v)).IsHermitian := fun v k => (h.ek k).add (h.bounded.2 _ (hv.herm v)).1
  have hn : ∀ v, 0 ≤ nrm v := fun v => (mul_nonneg hc1.le (size_nonneg _)).trans (hv.lower v)
  have hlen : ∃ n0, ∀ nitermax s' hist, solveIterState p nrm s N M0 mu0 nitermax mixing tol = .ok (s', hist) → hist.length ≤ n0 := by
    unfold solveIterState
    simp only [hm0.le, hm1, not_true_eq_false, if_false]
    cases solveSetup p s N M0 mu0 with
    | error e => exact ⟨0, fun nitermax s' hist he => by cases he⟩
    | ok x =>
      obtain ⟨s0, v0⟩ := x
      dsimp only
      set d := size (p.vec2mat v0 - rho) with hd
      have hd0 : 0 ≤ d := size_nonneg _
      set r := 1 - mixing + mixing * q with hrd
      have hr0 : 0 ≤ r := by
        have := mul_nonneg hm0.le hq0
        linarith
      have hr1 : r < 1 := by
        have := mul_lt_mul_of_pos_left hq1 hm0
        linarith
      obtain ⟨k, hk⟩ := exists_pow_lt_of_lt_one
        (show 0 < tol * c1 * size rho / (((1 + q) * c2 + tol * c1) * (d + 1)) by positivity) hr1
      refine ⟨k + 1, fun nitermax s' hist he => ?_⟩
      cases hl : solveLoop p nrm N mixing tol nitermax s0 v0 [] with
      | error e => rw [hl] at he; cases he
      | ok x =>
        obtain ⟨s1, hist1⟩ := x
        rw [hl] at he
        obtain ⟨-, rfl⟩ := Prod.mk.inj (Except.ok.inj he)
        have := loop_stops h hv hr ht hs hN hm0 hm1 htol k nitermax s0 v0 [] s1 hist1 d le_rfl (by
          show (1 + q) * c2 * (r ^ k * d) < tol * c1 * (size rho - r ^ k * d)
          rw [lt_div_iff₀ (by positivity)] at hk
          have h2 : 0 ≤ r ^ k * ((1 + q) * c2 + tol * c1) := by positivity
          nlinarith) hl
        simpa using this
  obtain ⟨n0, h0⟩ := hlen
  refine ⟨n0, fun nitermax s' hist hlt he => ⟨h0 _ _ _ he, ?_⟩⟩
  obtain ⟨pre, last, e1, -, e3, -, e5, e6⟩ := C86_solve_iter p h.beta h.eig h.eigv 0 0 h.brentq hh nrm hn s s' N M0 mu0 nitermax
    (by omega) mixing tol hist he
  have e7 := e6 (lt_of_le_of_lt (h0 _ _ _ he) hlt)
  rw [zero_mul, add_zero, mul_zero] at e5
  have e8 : Matrix.trace s'.rho = Matrix.trace rho := by
    rw [ht, ← e3.number]
    exact sub_eq_zero.1 (norm_le_zero_iff.1 e5)
  have hsh : s'.rho.IsHermitian := by
    have e : s'.rho = thermalDensity p.beta (fun k => p.ek k + meanField p.U (p.vec2mat last)) s'.mu := by
      rw [e3.rho]
      unfold thermalDensity
      congr 1
      refine Finset.sum_congr rfl fun k _ => ?_
      rw [e3.rhok, e3.bands, e3.mean]
    rw [e]
    exact thermal_hermitian p.beta (hh last) s'.mu
  refine ⟨last, by rw [e1]; simp, (C132_error h.beta h.bounded h.weak h.ek (hv.herm last) hr hs e3 (Or.inr e8)).trans ?_⟩
  have h1 : size (p.vec2mat last - s'.rho) ≤ tol * (c2 / c1) * size (p.vec2mat last) := by
    have h2 := hv.lower (last - p.mat2vec s'.rho)
    rw [hv.sub, hv.back _ hsh] at h2
    have h3 := hv.upper last
    have h4 : c1 * size (p.vec2mat last - s'.rho) ≤ tol * (c2 * size (p.vec2mat last)) :=
      h2.trans (e7.le.trans (mul_le_mul_of_nonneg_left h3 htol.le))
    rw [show tol * (c2 / c1) * size (p.vec2mat last) = tol * (c2 * size (p.vec2mat last)) / c1 by ring, le_div_iff₀ hc1]
    linarith
  have h2 : 0 ≤ q / (1 - q) := div_nonneg hq0 (by linarith)
  exact mul_le_mul_of_nonneg_left h1 h2

/-- C132: at weak coupling two runs of the Newton solver at a chemical potential, from any starts and with any root finder, that end at
self-consistent density matrices report the same density matrix, the same bands and the same number of particles. -/
theorem C132_newton_mu (h : WeakSolver p c) (hv : VecOk p nrm c1 c2) (fsolve fsolve' : V → Strategy V) (s t s' t' : State n κ)
    (m : ℝ) (M0 M0' : Option (Matrix (Fin n) (Fin n) ℂ)) (hs : solveNewtonMu p fsolve s m M0 = .ok s')
    (ht : solveNewtonMu p fsolve' t m M0' = .ok t') (hs' : s'.M = meanField p.U s'.rho) (ht' : t'.M = meanField p.U t'.rho) :
    s'.rho = t'.rho ∧ s'.ekMF = t'.ekMF ∧ s'.ntot = t'.ntot := by
  have hh : ∀ v k, (p.ek k + meanField p.U (p.vec2mat v)).IsHermitian := fun v k => (h.ek k).add (h.bounded.2 _ (hv.herm v)).1
  obtain ⟨a1, v, a2, -⟩ := C86_newton_mu p h.beta h.eig h.eigv hh fsolve s s' m M0 hs
  obtain ⟨b1, w, b2, -⟩ := C86_newton_mu p h.beta h.eig h.eigv hh fsolve' t t' m M0' ht
  have sol : ∀ {x : State n κ} {v : V}, DensityOf p.U p.beta p.ek (p.vec2mat v) x → x.M = meanField p.U x.rho → x.mu = m →
      x.rho.IsHermitian ∧ Solution p.U p.beta m p.ek x.rho := by
    intro x v hd hM hmu
    have e : x.rho = thermalDensity p.beta (fun k => p.ek k + x.M) x.mu := by
      rw [hd.rho]
      unfold thermalDensity
      congr 1
      refine Finset.sum_congr rfl fun k _ => ?_
      rw [hd.rhok, hd.bands]
    refine ⟨?_, ?_⟩
    · rw [e, hd.mean]
      exact thermal_hermitian p.beta (hh v) x.mu
    · unfold Solution
      rw [← hM, ← hmu]
      exact e
  obtain ⟨a3, a4⟩ := sol a2 hs' a1
  obtain ⟨b3, b4⟩ := sol b2 ht' b1
  have e := (C132_unique h.beta (h.bounded.weak h.beta h.weak) (fun k => (h.ek k).add (h.bounded.2 _ a3).1)
    (fun k => (h.ek k).add (h.bounded.2 _ b3).1) a4 b4 (Or.inl rfl)).1
  refine ⟨e, ?_, by rw [a2.number, b2.number, e]⟩
  funext k
  rw [a2.bands, b2.bands, hs', ht', e]

end Verif.Unique
