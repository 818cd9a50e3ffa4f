import Verif.HartreeFock.SolverState

/-!
# C124: where the drivers of the mean field solver start, and that the solver can be used again
-/

noncomputable section

namespace Verif.HartreeFock

open Matrix
open Verif.HfResponse (fermiMatrix)

variable {n : ℕ} {κ : Type*} {V : Type*} [Fintype κ] [Nonempty κ] [NeZero n]

set_option linter.unusedSectionVars false

/-! ## Specification -/

/-- the bands in the initial mean field, which is zero if none is given -/
def startBands (ek : κ → Matrix (Fin n) (Fin n) ℂ) (M0 : Option (Matrix (Fin n) (Fin n) ℂ)) (k : κ) :
    Matrix (Fin n) (Fin n) ℂ := ek k + M0.getD 0

/-! ## Starting point -/

/-- C124: the drivers at fixed number of particles start from the thermal density matrix of `e_k + M0` (`e_k` if no `M0`
is given) with the requested number of particles. -/
theorem C124_setup (p : Params n κ V) (hb : 0 ≤ p.beta) (hs : Lindhard.EigSpec p.eig) (hsv : Lindhard.EigSpec p.eigv)
    (xtol rtol : ℝ) (hbr : BrentSpec xtol rtol p.brentq) (s s' : State n κ) (N : ℝ)
    (M0 : Option (Matrix (Fin n) (Fin n) ℂ)) (hh : ∀ k, (startBands p.ek M0 k).IsHermitian) (mu0 : Option ℝ) (v : V)
    (h : solveSetup p s N M0 mu0 = .ok (s', v)) :
    v = p.mat2vec (thermalDensity p.beta (startBands p.ek M0) s'.mu) ∧
      |filling p.beta (startBands p.ek M0) s'.mu - N| ≤ n * p.beta / 4 * (xtol + rtol * |s'.mu|) := by
  have key : ∀ (s1 : State n κ) (Mx : Matrix (Fin n) (Fin n) ℂ), Mx = M0.getD 0 →
      (match updateMu p (updateDispersion p { s1 with M := Mx }) N none with
        | .error e => .error e
        | .ok s => .ok (updateDensity p s, p.mat2vec (updateDensity p s).rho)) = Except.ok (s', v) →
      v = p.mat2vec (thermalDensity p.beta (startBands p.ek M0) s'.mu) ∧
        |filling p.beta (startBands p.ek M0) s'.mu - N| ≤ n * p.beta / 4 * (xtol + rtol * |s'.mu|) := by
    intro s1 Mx hM h1
    obtain ⟨s2, h2⟩ : ∃ s2, s2 = updateDispersion p { s1 with M := Mx } := ⟨_, rfl⟩
    have e2 : s2.ekMF = startBands p.ek M0 := by
      rw [h2, hM]
      rfl
    rw [← h2] at h1
    cases hu : updateMu p s2 N none with
    | error e => rw [hu] at h1; cases h1
    | ok s3 =>
      rw [hu] at h1
      obtain ⟨rfl, rfl⟩ := Prod.mk.inj (Except.ok.inj h1)
      obtain ⟨c1, c2⟩ := C85_filling p hb hsv xtol rtol hbr s2 s3 (by rw [e2]; exact hh) N none hu
      have e3 : s3.ekMF = startBands p.ek M0 := by rw [c1]; exact e2
      rw [e2] at c2
      refine ⟨?_, c2⟩
      have := density_eq p.beta s3.mu hs s3.ekMF (by rw [e3]; exact hh)
      rw [← e3]
      exact congrArg p.mat2vec this
  unfold solveSetup at h
  cases mu0 with
  | some m => exact key { s with mu := m } _ (by cases M0 <;> rfl) h
  | none =>
    dsimp only at h
    cases hu : updateMu p s N (some 0) with
    | error e => rw [hu] at h; cases h
    | ok s1 => rw [hu] at h; exact key s1 _ (by cases M0 <;> rfl) h

/-- C124: the history returned by `solve_iter` begins with this density matrix. -/
theorem C124_iter (p : Params n κ V) [AddCommGroup V] [Module ℝ V] (hb : 0 ≤ p.beta) (hs : Lindhard.EigSpec p.eig)
    (hsv : Lindhard.EigSpec p.eigv) (xtol rtol : ℝ) (hbr : BrentSpec xtol rtol p.brentq) (nrm : V → ℝ)
    (s s' : State n κ) (N : ℝ) (M0 : Option (Matrix (Fin n) (Fin n) ℂ))
    (hh : ∀ k, (startBands p.ek M0 k).IsHermitian) (mu0 : Option ℝ) (nitermax : ℕ) (h0 : nitermax ≠ 0) (mixing tol : ℝ)
    (hist : List V) (h : solveIterState p nrm s N M0 mu0 nitermax mixing tol = .ok (s', hist)) :
    ∃ mu : ℝ, hist.head? = some (p.mat2vec (thermalDensity p.beta (startBands p.ek M0) mu)) ∧
      |filling p.beta (startBands p.ek M0) mu - N| ≤ n * p.beta / 4 * (xtol + rtol * |mu|) := by
  obtain ⟨fuel, rfl⟩ := Nat.exists_eq_succ_of_ne_zero h0
  have grow : ∀ (fuel : ℕ) (s : State n κ) (v : V) (x : V) (l : List V) (s' : State n κ) (hist : List V),
      solveLoop p nrm N mixing tol fuel s v (x :: l) = .ok (s', hist) → hist.head? = some x := by
    intro fuel
    induction fuel with
    | zero =>
      intro s v x l s' hist h
      obtain ⟨-, rfl⟩ := Prod.mk.inj (Except.ok.inj h)
      rfl
    | succ fuel ih =>
      intro s v x l s' hist h
      unfold solveLoop at h
      dsimp only at h
      cases hd : densityStep p s v (some N) with
      | error e => rw [hd] at h; cases h
      | ok q =>
        rw [hd] at h
        dsimp only at h
        split_ifs at h
        · obtain ⟨-, rfl⟩ := Prod.mk.inj (Except.ok.inj h)
          rfl
        · exact ih _ _ x (l ++ [v]) _ _ h
  unfold solveIterState at h
  split_ifs at h
  cases hsu : solveSetup p s N M0 mu0 with
  | error e => rw [hsu] at h; cases h
  | ok q =>
    obtain ⟨s0, v0⟩ := q
    rw [hsu] at h
    dsimp only at h
    cases hl : solveLoop p nrm N mixing tol (fuel + 1) s0 v0 [] with
    | error e => rw [hl] at h; cases h
    | ok q =>
      obtain ⟨s1, hist1⟩ := q
      rw [hl] at h
      obtain ⟨-, rfl⟩ := Prod.mk.inj (Except.ok.inj h)
      obtain ⟨c1, c2⟩ := C124_setup p hb hs hsv xtol rtol hbr s s0 N M0 hh mu0 v0 hsu
      refine ⟨s0.mu, ?_, c2⟩
      rw [← c1]
      unfold solveLoop at hl
      dsimp only at hl
      cases hd : densityStep p s0 v0 (some N) with
      | error e => rw [hd] at hl; cases hl
      | ok q =>
        rw [hd] at hl
        dsimp only at hl
        split_ifs at hl
        · obtain ⟨-, rfl⟩ := Prod.mk.inj (Except.ok.inj hl)
          rfl
        · exact grow _ _ _ v0 [] _ _ hl

/-- C124: the root finder of `solve_newton_mu` starts from the thermal density matrix of `e_k + M0` at the given
chemical potential: the result is the same if it is told to start there. -/
theorem C124_newton_mu [Sub V] (p : Params n κ V) (hs : Lindhard.EigSpec p.eig) (fsolve : V → Strategy V)
    (s : State n κ) (mu : ℝ) (M0 : Option (Matrix (Fin n) (Fin n) ℂ)) (hh : ∀ k, (startBands p.ek M0 k).IsHermitian) :
    solveNewtonMu p fsolve s mu M0
      = solveNewtonMu p (fun _ => fsolve (p.mat2vec (thermalDensity p.beta (startBands p.ek M0) mu))) s mu M0 := by
  cases M0 with
  | none =>
    have e : (updateDensity p (updateDispersion p { s with mu := mu, M := 0 })).rho
        = thermalDensity p.beta (startBands p.ek none) mu := density_eq p.beta mu hs (startBands p.ek none) hh
    unfold solveNewtonMu
    dsimp only
    rw [e]
  | some M =>
    have e : (updateDensity p (updateDispersion p { s with mu := mu, M := M })).rho
        = thermalDensity p.beta (startBands p.ek (some M)) mu := density_eq p.beta mu hs (startBands p.ek (some M)) hh
    unfold solveNewtonMu
    dsimp only
    rw [e]

/-- C124: the same for `solve_newton` and a chemical potential with the requested number of particles. -/
theorem C124_newton [Sub V] (p : Params n κ V) (hb : 0 ≤ p.beta) (hs : Lindhard.EigSpec p.eig)
    (hsv : Lindhard.EigSpec p.eigv) (xtol rtol : ℝ) (hbr : BrentSpec xtol rtol p.brentq) (fsolve : V → Strategy V)
    (s s' : State n κ) (N : ℝ) (M0 : Option (Matrix (Fin n) (Fin n) ℂ))
    (hh : ∀ k, (startBands p.ek M0 k).IsHermitian) (mu0 : Option ℝ) (h : solveNewton p fsolve s N M0 mu0 = .ok s') :
    ∃ mu : ℝ, |filling p.beta (startBands p.ek M0) mu - N| ≤ n * p.beta / 4 * (xtol + rtol * |mu|) ∧
      solveNewton p (fun _ => fsolve (p.mat2vec (thermalDensity p.beta (startBands p.ek M0) mu))) s N M0 mu0
        = .ok s' := by
  unfold solveNewton at h ⊢
  cases hsu : solveSetup p s N M0 mu0 with
  | error e => rw [hsu] at h; cases h
  | ok q =>
    obtain ⟨s0, v0⟩ := q
    rw [hsu] at h
    obtain ⟨c1, c2⟩ := C124_setup p hb hs hsv xtol rtol hbr s s0 N M0 hh mu0 v0 hsu
    refine ⟨s0.mu, c2, ?_⟩
    rw [← c1]
    exact h

/-! ## Use of a solver that has been used before -/

/-- everything but the energies agrees -/
def SameDensity (s t : State n κ) : Prop :=
  s.mu = t.mu ∧ s.M = t.M ∧ s.ekMF = t.ekMF ∧ s.rhok = t.rhok ∧ s.rho = t.rho ∧ s.ntot = t.ntot

/-- related results of a step -/
def SameRes : Except String (State n κ × V) → Except String (State n κ × V) → Prop
  | .error e, .error e' => e = e'
  | .ok x, .ok y => SameDensity x.1 y.1 ∧ x.2 = y.2
  | _, _ => False

theorem updateMu_congr (p : Params n κ V) (s t : State n κ) (h : s.ekMF = t.ekMF) (N : ℝ) (m m' : Option ℝ) :
    (∃ e, updateMu p s N m = .error e ∧ updateMu p t N m' = .error e)
      ∨ ∃ mu, updateMu p s N m = .ok { s with mu := mu } ∧ updateMu p t N m' = .ok { t with mu := mu } := by
  have e1 : targetFunction p s N = targetFunction p t N := by
    funext mu
    unfold targetFunction
    rw [h]
  have e2 : eMin p s = eMin p t := by
    unfold eMin
    rw [h]
  have e3 : eMax p s = eMax p t := by
    unfold eMax
    rw [h]
  unfold updateMu
  dsimp only
  rw [e1, e2, e3]
  cases p.brentq _ _ _ with
  | error e => exact Or.inl ⟨e, rfl, rfl⟩
  | ok mu => exact Or.inr ⟨mu, rfl, rfl⟩

theorem updateDensity_congr (p : Params n κ V) (s t : State n κ) (h1 : s.mu = t.mu) (h2 : s.M = t.M)
    (h3 : s.ekMF = t.ekMF) : SameDensity (updateDensity p s) (updateDensity p t) := by
  obtain ⟨s1, s2, s3, s4, s5, s6, s7, s8, s9, s10, s11⟩ := s
  obtain ⟨t1, t2, t3, t4, t5, t6, t7, t8, t9, t10, t11⟩ := t
  change s1 = t1 at h1
  change s2 = t2 at h2
  change s3 = t3 at h3
  subst h1 h2 h3
  exact ⟨rfl, rfl, rfl, rfl, rfl, rfl⟩

theorem densityStep_congr (p : Params n κ V) (s t : State n κ) (v : V) (N : Option ℝ) (h : N = none → s.mu = t.mu) :
    SameRes (densityStep p s v N) (densityStep p t v N) := by
  unfold densityStep
  cases N with
  | none =>
    have := updateDensity_congr p (updateDispersion p (updateMeanField p s (p.vec2mat v)))
      (updateDispersion p (updateMeanField p t (p.vec2mat v))) (h rfl) rfl rfl
    exact ⟨this, congrArg p.mat2vec this.2.2.2.2.1⟩
  | some N =>
    dsimp only
    rcases updateMu_congr p (updateDispersion p (updateMeanField p s (p.vec2mat v)))
      (updateDispersion p (updateMeanField p t (p.vec2mat v))) rfl N
      (some (updateDispersion p (updateMeanField p s (p.vec2mat v))).mu)
      (some (updateDispersion p (updateMeanField p t (p.vec2mat v))).mu) with ⟨e, h1, h2⟩ | ⟨mu, h1, h2⟩
    · rw [h1, h2]
      rfl
    · rw [h1, h2]
      have := updateDensity_congr p { updateDispersion p (updateMeanField p s (p.vec2mat v)) with mu := mu }
        { updateDispersion p (updateMeanField p t (p.vec2mat v)) with mu := mu } rfl rfl rfl
      exact ⟨this, congrArg p.mat2vec this.2.2.2.2.1⟩

theorem setup_some (p : Params n κ V) (s : State n κ) (N : ℝ) (M0 : Option (Matrix (Fin n) (Fin n) ℂ)) (m : ℝ) :
    solveSetup p s N M0 (some m) = match updateMu p (updateDispersion p { s with mu := m, M := M0.getD 0 }) N none with
      | .error e => .error e
      | .ok s => .ok (updateDensity p s, p.mat2vec (updateDensity p s).rho) := by
  cases M0 <;> rfl

theorem newtonMu_some [Sub V] (p : Params n κ V) (fsolve : V → Strategy V) (s : State n κ) (mu : ℝ)
    (M0 : Option (Matrix (Fin n) (Fin n) ℂ)) :
    solveNewtonMu p fsolve s mu M0 = match runStrategy p none (fsolve (p.mat2vec (updateDensity p (updateDispersion p
        { s with mu := mu, M := M0.getD 0 })).rho)) (updateDensity p (updateDispersion p
        { s with mu := mu, M := M0.getD 0 })) with
      | .error e => .error e
      | .ok (s, v) =>
        match densityStep p (updateTotalEnergy p s) v none with
        | .error e => .error e
        | .ok (s, _) => .ok s := by
  cases M0 <;> rfl

theorem setup_congr (p : Params n κ V) (s t : State n κ) (N : ℝ) (M0 : Option (Matrix (Fin n) (Fin n) ℂ)) (m m' : ℝ) :
    SameRes (solveSetup p s N M0 (some m)) (solveSetup p t N M0 (some m')) := by
  rw [setup_some, setup_some]
  rcases updateMu_congr p (updateDispersion p { s with mu := m, M := M0.getD 0 })
    (updateDispersion p { t with mu := m', M := M0.getD 0 }) rfl N none none with
    ⟨e, h1, h2⟩ | ⟨mu, h1, h2⟩
  · rw [h1, h2]
    rfl
  · rw [h1, h2]
    have := updateDensity_congr p
      { updateDispersion p { s with mu := m, M := M0.getD 0 } with mu := mu }
      { updateDispersion p { t with mu := m', M := M0.getD 0 } with mu := mu } rfl rfl rfl
    exact ⟨this, congrArg p.mat2vec this.2.2.2.2.1⟩

theorem energy_congr (p : Params n κ V) (s t : State n κ) (h : SameDensity s t) :
    updateTotalEnergy p s = updateTotalEnergy p t := by
  obtain ⟨s1, s2, s3, s4, s5, s6, s7, s8, s9, s10, s11⟩ := s
  obtain ⟨t1, t2, t3, t4, t5, t6, t7, t8, t9, t10, t11⟩ := t
  obtain ⟨h1, h2, h3, h4, h5, h6⟩ := h
  dsimp only at h1 h2 h3 h4 h5 h6
  subst h1 h2 h3 h4 h5 h6
  rfl

theorem run_congr [Sub V] (p : Params n κ V) (N : Option ℝ) (st : Strategy V) :
    ∀ s t : State n κ, SameDensity s t → SameRes (runStrategy p N st s) (runStrategy p N st t) := by
  induction st with
  | ret x => exact fun s t h => ⟨h, rfl⟩
  | eval x next ih =>
    intro s t h
    have h1 := densityStep_congr p s t x N fun _ => h.1
    unfold runStrategy
    revert h1
    cases densityStep p s x N with
    | error e =>
      cases densityStep p t x N with
      | error e' => exact id
      | ok y => exact False.elim
    | ok x' =>
      cases densityStep p t x N with
      | error e' => exact False.elim
      | ok y =>
        obtain ⟨x1, x2⟩ := x'
        obtain ⟨y1, y2⟩ := y
        rintro ⟨h1, h2⟩
        dsimp only at h1 h2 ⊢
        rw [h2]
        exact ih _ x1 y1 h1

theorem loop_congr [AddCommGroup V] [Module ℝ V] (p : Params n κ V) (nrm : V → ℝ) (N mixing tol : ℝ) (fuel : ℕ) :
    ∀ (s t : State n κ) (v : V) (l : List V), SameDensity s t →
      (∃ e, solveLoop p nrm N mixing tol fuel s v l = .error e ∧ solveLoop p nrm N mixing tol fuel t v l = .error e)
        ∨ ∃ s' t' l', SameDensity s' t' ∧ solveLoop p nrm N mixing tol fuel s v l = .ok (s', l')
          ∧ solveLoop p nrm N mixing tol fuel t v l = .ok (t', l') := by
  induction fuel with
  | zero => exact fun s t v l h => Or.inr ⟨s, t, l, h, rfl, rfl⟩
  | succ fuel ih =>
    intro s t v l h
    have h1 := densityStep_congr p s t v (some N) fun _ => h.1
    unfold solveLoop
    dsimp only
    revert h1
    cases densityStep p s v (some N) with
    | error e =>
      cases densityStep p t v (some N) with
      | error e' => exact fun h => Or.inl ⟨e, rfl, by rw [show e = e' from h]⟩
      | ok y => exact False.elim
    | ok x' =>
      cases densityStep p t v (some N) with
      | error e' => exact False.elim
      | ok y =>
        obtain ⟨x1, x2⟩ := x'
        obtain ⟨y1, y2⟩ := y
        rintro ⟨h1, h2⟩
        dsimp only at h1 h2 ⊢
        subst h2
        by_cases hc : nrm v ≠ 0 ∧ nrm (v - x2) / nrm v < tol
        · rw [if_pos hc, if_pos hc]
          exact Or.inr ⟨x1, y1, _, h1, rfl, rfl⟩
        · rw [if_neg hc, if_neg hc]
          exact ih x1 y1 _ _ h1

/-- C124: `solve_newton_mu` leaves nothing of an earlier use of the solver: the final attributes are the same whatever
the state before the call. -/
theorem C124_reuse_newton_mu [Sub V] (p : Params n κ V) (fsolve : V → Strategy V) (s t : State n κ) (mu : ℝ)
    (M0 : Option (Matrix (Fin n) (Fin n) ℂ)) : solveNewtonMu p fsolve s mu M0 = solveNewtonMu p fsolve t mu M0 := by
  have h0 := updateDensity_congr p
    (updateDispersion p { s with mu := mu, M := M0.getD 0 })
    (updateDispersion p { t with mu := mu, M := M0.getD 0 }) rfl rfl rfl
  rw [newtonMu_some, newtonMu_some]
  rw [show (updateDensity p (updateDispersion p { s with mu := mu, M := M0.getD 0 })).rho
    = _ from h0.2.2.2.2.1]
  have h1 := run_congr p none (fsolve (p.mat2vec (updateDensity p (updateDispersion p
    { t with mu := mu, M := M0.getD 0 })).rho)) _ _ h0
  revert h1
  cases runStrategy p none _ (updateDensity p (updateDispersion p
    { s with mu := mu, M := M0.getD 0 })) with
  | error e =>
    cases runStrategy p none _ (updateDensity p (updateDispersion p
      { t with mu := mu, M := M0.getD 0 })) with
    | error e' => exact fun h => by rw [show e = e' from h]
    | ok y => exact False.elim
  | ok x =>
    cases runStrategy p none _ (updateDensity p (updateDispersion p
      { t with mu := mu, M := M0.getD 0 })) with
    | error e' => exact False.elim
    | ok y =>
      obtain ⟨x1, x2⟩ := x
      obtain ⟨y1, y2⟩ := y
      rintro ⟨h1, h2⟩
      dsimp only at h1 h2 ⊢
      rw [energy_congr p x1 y1 h1, h2]

/-- C124: neither does `solve_newton`, if a chemical potential is given, which itself has no influence. -/
theorem C124_reuse_newton_partial [Sub V] (p : Params n κ V) (fsolve : V → Strategy V) (s t : State n κ) (N : ℝ)
    (M0 : Option (Matrix (Fin n) (Fin n) ℂ)) (m m' : ℝ) :
    solveNewton p fsolve s N M0 (some m) = solveNewton p fsolve t N M0 (some m') := by
  have h0 := setup_congr p s t N M0 m m'
  unfold solveNewton
  revert h0
  cases solveSetup p s N M0 (some m) with
  | error e =>
    cases solveSetup p t N M0 (some m') with
    | error e' => exact fun h => by rw [show e = e' from h]
    | ok y => exact False.elim
  | ok x =>
    cases solveSetup p t N M0 (some m') with
    | error e' => exact False.elim
    | ok y =>
      obtain ⟨x1, x2⟩ := x
      obtain ⟨y1, y2⟩ := y
      rintro ⟨h1, h2⟩
      dsimp only at h1 h2 ⊢
      subst h2
      have h3 := run_congr p (some N) (fsolve x2) _ _ h1
      revert h3
      cases runStrategy p (some N) (fsolve x2) x1 with
      | error e =>
        cases runStrategy p (some N) (fsolve x2) y1 with
        | error e' => exact fun h => by rw [show e = e' from h]
        | ok y => exact False.elim
      | ok x =>
        cases runStrategy p (some N) (fsolve x2) y1 with
        | error e' => exact False.elim
        | ok y =>
          obtain ⟨x3, x4⟩ := x
          obtain ⟨y3, y4⟩ := y
          rintro ⟨h1, h2⟩
          dsimp only at h1 h2 ⊢
          rw [energy_congr p x3 y3 h1, h2]

/-- C124: nor does `solve_iter`. -/
theorem C124_reuse_iter_partial [AddCommGroup V] [Module ℝ V] (p : Params n κ V) (nrm : V → ℝ) (s t : State n κ) (N : ℝ)
    (M0 : Option (Matrix (Fin n) (Fin n) ℂ)) (m m' : ℝ) (nitermax : ℕ) (mixing tol : ℝ) :
    solveIterState p nrm s N M0 (some m) nitermax mixing tol
      = solveIterState p nrm t N M0 (some m') nitermax mixing tol := by
  have h0 := setup_congr p s t N M0 m m'
  unfold solveIterState
  by_cases c1 : ¬ 0 ≤ mixing
  · rw [if_pos c1, if_pos c1]
  by_cases c2 : ¬ mixing ≤ 1
  · rw [if_neg c1, if_neg c1, if_pos c2, if_pos c2]
  rw [if_neg c1, if_neg c1, if_neg c2, if_neg c2]
  revert h0
  cases solveSetup p s N M0 (some m) with
  | error e =>
    cases solveSetup p t N M0 (some m') with
    | error e' => exact fun h => by rw [show e = e' from h]
    | ok y => exact False.elim
  | ok x =>
    cases solveSetup p t N M0 (some m') with
    | error e' => exact False.elim
    | ok y =>
      obtain ⟨x1, x2⟩ := x
      obtain ⟨y1, y2⟩ := y
      rintro ⟨h1, h2⟩
      dsimp only at h1 h2 ⊢
      subst h2
      rcases loop_congr p nrm N mixing tol nitermax x1 y1 x2 [] h1 with ⟨e, g1, g2⟩ | ⟨s', t', l', g0, g1, g2⟩
      · rw [g1, g2]
      · rw [g1, g2]
        dsimp only
        rw [energy_congr p s' t' g0]

/-- without a chemical potential there is one more search, in the bands left behind by the last call -/
theorem setup_none (p : Params n κ V) (s : State n κ) (N : ℝ) (M0 : Option (Matrix (Fin n) (Fin n) ℂ)) (m : ℝ) :
    (∃ e, updateMu p s N (some 0) = .error e ∧ solveSetup p s N M0 none = .error e)
      ∨ solveSetup p s N M0 none = solveSetup p s N M0 (some m) := by
  unfold solveSetup
  dsimp only
  cases hu : updateMu p s N (some 0) with
  | error e => exact Or.inl ⟨e, rfl, rfl⟩
  | ok s1 =>
    right
    dsimp only
    have := updateMu_ok p s s1 N _ hu
    rw [this]
    rfl

/-- the hypotheses of `C124_setup` are met by the atom, and the start is half filling of both levels -/
example {eig : Lindhard.Eig (Fin 2)} (hs : Lindhard.EigSpec eig) {brentq : Brentq} (hbr : BrentSpec 0 0 brentq) :
    ∃ s', solveSetup (atomParams eig brentq) atomState 1 none (some 7) = .ok (s', fun _ => 1 / 2) ∧
      (∀ k, (startBands (atomParams eig brentq).ek none k).IsHermitian) := by
  obtain ⟨s', h⟩ := atom_setup hs hbr atomState 7
  exact ⟨s', h, fun k => by simp [startBands, atomParams, Matrix.IsHermitian]⟩

/-! ## The search in the old bands -/

theorem split_diag : Lindhard.Diag (diagonal ![(1 : ℂ), -1]) (![(1 : ℝ), -1], (1 : Matrix (Fin 2) (Fin 2) ℂ)) := by
  refine ⟨by simp, by simp, ?_⟩
  rw [Matrix.one_mul, Matrix.conjTranspose_one, Matrix.mul_one]
  congr 1
  funext i
  fin_cases i <;> simp

/-- the density of a level split by `±1` -/
theorem split_filling (mu : ℝ) : filling (n := 2) (κ := Fin 1) 1 (fun _ => diagonal ![(1 : ℂ), -1]) mu
    = fermi 1 (1 - mu) + fermi 1 (-1 - mu) := by
  unfold filling
  dsimp only
  rw [fermiMatrix_shift 1 mu split_diag, Lindhard.matFun, Matrix.one_mul, Matrix.conjTranspose_one, Matrix.mul_one]
  simp [Matrix.trace_diagonal, Fin.sum_univ_two]

/-- C124 (violated without `mu0`): whether `solve_newton` and `solve_iter` succeed depends on the bands left behind by
the last call. Here the new solver object for a level refuses three quarters of a particle in a splitting `M0`, while
the same call with any `mu0`, or on a solver left behind in bands with that splitting, succeeds. -/
theorem C124_history_violated : ∃ (p : Params 2 (Fin 1) (Fin 2 → ℝ)) (s : State 2 (Fin 1)) (N : ℝ)
    (M0 : Matrix (Fin 2) (Fin 2) ℂ),
    Lindhard.EigSpec p.eig ∧ Lindhard.EigSpec p.eigv ∧ BrentSpec 0 0 p.brentq ∧ s.ekMF = p.ek ∧ M0.IsHermitian ∧
    solveSetup p s N (some M0) none = .error "ValueError" ∧
    (∀ m, ∃ r, solveSetup p s N (some M0) (some m) = .ok r) ∧
    ∃ t : State 2 (Fin 1), ∃ r, solveSetup p t N (some M0) none = .ok r := by
  obtain ⟨eig, hs⟩ := Lindhard.exists_eigSpec (o := Fin 2)
  obtain ⟨brentq, hbr⟩ := exists_brent 0 0 le_rfl le_rfl
  have hM : (diagonal ![(1 : ℂ), -1]).IsHermitian := by
    rw [Matrix.IsHermitian, Matrix.diagonal_conjTranspose]
    congr 1
    funext i
    fin_cases i <;> simp
  have hsp : spectrum ℂ (diagonal ![(1 : ℂ), -1]) = Set.range ![(1 : ℂ), -1] := by
    rw [spectrum_of_diag split_diag]
    congr 1
    funext i
    fin_cases i <;> simp
  have hmem : ∀ x : ℝ, (∃ _ : Fin 1, (x : ℂ) ∈ spectrum ℂ (diagonal ![(1 : ℂ), -1])) ↔ x = 1 ∨ x = -1 := by
    intro x
    rw [hsp]
    constructor
    · rintro ⟨-, i, hi⟩
      fin_cases i
      · left
        have : (1 : ℂ) = x := hi
        exact_mod_cast this.symm
      · right
        have : (-1 : ℂ) = x := hi
        exact_mod_cast this.symm
    · rintro (rfl | rfl)
      · exact ⟨0, 0, by simp⟩
      · exact ⟨0, 1, by simp⟩
  -- the search in the split level succeeds
  have hok : ∀ (s : State 2 (Fin 1)) (m : Option ℝ), s.ekMF = (fun _ => diagonal ![(1 : ℂ), -1]) →
      ∃ s', updateMu (atomParams eig brentq) s (3 / 4) m = .ok s' := by
    intro s m hek
    refine (C85_default_range (atomParams eig brentq) hs 0 0 hbr s (fun k => by rw [hek]; exact hM) (3 / 4) m rfl rfl
      (-1) 1 ?_ ?_).2 ?_
    · rw [hek]
      refine ⟨(hmem _).2 (Or.inr rfl), fun x hx => ?_⟩
      rcases (hmem x).1 hx with rfl | rfl <;> norm_num
    · rw [hek]
      refine ⟨(hmem _).2 (Or.inl rfl), fun x hx => ?_⟩
      rcases (hmem x).1 hx with rfl | rfl <;> norm_num
    · rw [hek]
      change (filling 1 _ (-1) - 3 / 4) * (filling 1 _ 1 - 3 / 4) ≤ 0
      rw [split_filling, split_filling]
      have e2 : (3 : ℝ) < Real.exp 2 := by
        have := Real.add_one_lt_exp (x := 2) (by norm_num)
        linarith
      have e2' : Real.exp (-2) < 1 / 3 := by
        rw [Real.exp_neg, ← one_div]
        exact one_div_lt_one_div_of_lt (by norm_num) e2
      have f1 : fermi 1 2 < 1 / 4 := by
        rw [fermi, one_mul]
        exact one_div_lt_one_div_of_lt (by norm_num) (by linarith)
      have f2 : 3 / 4 < fermi 1 (-2) := by
        rw [fermi, one_mul, lt_div_iff₀ (by positivity)]
        linarith
      have f3 : fermi 1 0 = 1 / 2 := by
        unfold fermi
        norm_num
      rw [show (1 : ℝ) - -1 = 2 by norm_num, show (-1 : ℝ) - -1 = 0 by norm_num, show (1 : ℝ) - 1 = 0 by norm_num,
        show (-1 : ℝ) - 1 = -2 by norm_num, f3]
      exact mul_nonpos_of_nonpos_of_nonneg (by linarith) (by linarith)
  refine ⟨atomParams eig brentq, atomState, 3 / 4, diagonal ![(1 : ℂ), -1], hs, hs, hbr, rfl, hM, ?_, ?_, ?_⟩
  · have hflat : ∀ k : Fin 1, atomState.ekMF k = ((0 : ℝ) : ℂ) • 1 := fun k => by simp [atomState]
    have h1 := (C85_flat_violated (atomParams eig brentq) one_pos hs 0 0 hbr atomState 0 hflat rfl rfl (3 / 4)
      (by norm_num) (by norm_num) (by norm_num) (some 0)).1
    unfold solveSetup
    dsimp only
    rw [h1]
  · intro m
    rw [setup_some]
    obtain ⟨s', h'⟩ := hok (updateDispersion (atomParams eig brentq) { atomState with
      mu := m, M := (some (diagonal ![(1 : ℂ), -1])).getD 0 }) none (by
        funext k
        simp [updateDispersion, meanFieldDispersion, atomParams])
    rw [h']
    exact ⟨_, rfl⟩
  · refine ⟨{ atomState with ekMF := fun _ => diagonal ![(1 : ℂ), -1] }, ?_⟩
    obtain ⟨s', h'⟩ := hok { atomState with ekMF := fun _ => diagonal ![(1 : ℂ), -1] } (some 0) rfl
    rcases setup_none (atomParams eig brentq) { atomState with ekMF := fun _ => diagonal ![(1 : ℂ), -1] } (3 / 4)
      (some (diagonal ![(1 : ℂ), -1])) 0 with ⟨e, h1, -⟩ | h1
    · rw [h'] at h1
      cases h1
    · rw [h1, setup_some]
      obtain ⟨s', h'⟩ := hok (updateDispersion (atomParams eig brentq) { atomState with
        ekMF := fun _ => diagonal ![(1 : ℂ), -1], mu := 0, M := (some (diagonal ![(1 : ℂ), -1])).getD 0 }) none (by
          funext k
          simp [updateDispersion, meanFieldDispersion, atomParams])
      rw [h']
      exact ⟨_, rfl⟩

end Verif.HartreeFock
