import Verif.HartreeFock.Model
import Verif.Lindhard.Model
import Mathlib.Topology.Order.IntermediateValue
import Mathlib.Data.Finset.Lattice.Fold

/-!
# Model of the state and the drivers of `HartreeFockSolver` (hf_solver.py)

The solver object is a record; every method maps the record to a new one. SciPy's `brentq` and `fsolve` are
arguments: `brentq` a function obeying its documentation (`BrentSpec`), `fsolve` any procedure that evaluates
the target function at points of its choice and finally returns a point (`Strategy`). NumPy's `eigvalsh` and
`eigh` are two arguments of type `Lindhard.Eig`. The vectorisation (`mat2vec`, `vec2mat`) is an argument, since
`HartreeSolver` overrides it (see C46 for both variants). Printing is not modelled.
-/

noncomputable section

namespace Verif.HartreeFock

variable {n : ℕ} {κ : Type*} {V : Type*}

/-- type of `scipy.optimize.brentq(f, a, b)` -/
abbrev Brentq := (ℝ → ℝ) → ℝ → ℝ → Except String ℝ

/-- documented behaviour of `brentq`: `ValueError` unless the ends have different signs; otherwise a point of
the interval within `xtol + rtol |r|` of a zero. -/
structure BrentSpec (xtol rtol : ℝ) (brentq : Brentq) : Prop where
  refuses : ∀ f a b, 0 < f a * f b → brentq f a b = .error "ValueError"
  finds : ∀ f a b, Continuous f → f a * f b ≤ 0 → ∃ r, brentq f a b = .ok r ∧
    ∃ x ∈ Set.uIcc a b, f x = 0 ∧ |r - x| ≤ xtol + rtol * |r|

/-- a procedure that evaluates a function at points of its choice and returns a point -/
inductive Strategy (V : Type*) where
  /-- return a point -/
  | ret (x : V) : Strategy V
  /-- evaluate at a point and go on depending on the value -/
  | eval (x : V) (next : V → Strategy V) : Strategy V

/-- constructor arguments (hf_solver.py:81-139): dispersion, inverse temperature, interaction tensor, search
range; and the external routines. -/
structure Params (n : ℕ) (κ V : Type*) where
  /-- `beta` -/
  beta : ℝ
  /-- `mu_min` -/
  muMin : Option ℝ
  /-- `mu_max` -/
  muMax : Option ℝ
  /-- `e_k` -/
  ek : κ → Matrix (Fin n) (Fin n) ℂ
  /-- `U_abcd` -/
  U : Operators.T4 n
  /-- `mat2vec` -/
  mat2vec : Matrix (Fin n) (Fin n) ℂ → V
  /-- `vec2mat` -/
  vec2mat : V → Matrix (Fin n) (Fin n) ℂ
  /-- `np_eigvalsh` -/
  eigv : Lindhard.Eig (Fin n)
  /-- `np_eigh` -/
  eig : Lindhard.Eig (Fin n)
  /-- `brentq` -/
  brentq : Brentq

/-- attributes of the solver that change -/
structure State (n : ℕ) (κ : Type*) where
  /-- `self.mu` -/
  mu : ℝ
  /-- `self.M` -/
  M : Matrix (Fin n) (Fin n) ℂ
  /-- `self.e_k_MF` -/
  ekMF : κ → Matrix (Fin n) (Fin n) ℂ
  /-- `self.rho_kab` -/
  rhok : κ → Matrix (Fin n) (Fin n) ℂ
  /-- `self.rho_ab` -/
  rho : Matrix (Fin n) (Fin n) ℂ
  /-- `self.N_tot` -/
  ntot : ℂ
  /-- `self.E_kin` -/
  ekin : ℂ
  /-- `self.E_int` -/
  eint : ℂ
  /-- `self.E_tot` -/
  etot : ℂ
  /-- `self.Omega0` -/
  omega0 : ℝ
  /-- `self.Omega` -/
  omega : ℂ

/-- `update_mean_field` (hf_solver.py:142-146) -/
def updateMeanField (p : Params n κ V) (s : State n κ) (rho : Matrix (Fin n) (Fin n) ℂ) : State n κ :=
  { s with M := meanField p.U rho }

/-- `update_mean_field_dispersion` (hf_solver.py:149-150) -/
def updateDispersion (p : Params n κ V) (s : State n κ) : State n κ :=
  { s with ekMF := meanFieldDispersion p.ek s.M }

section
variable [Fintype κ]

/-- `target_function` of `update_chemical_potential` (hf_solver.py:162-164) -/
def targetFunction (p : Params n κ V) (s : State n κ) (N : ℝ) (mu : ℝ) : ℝ :=
  (∑ k, ∑ b, fermi p.beta ((p.eigv (s.ekMF k)).1 b - mu)) / (Fintype.card κ : ℝ) - N

variable [Nonempty κ] [NeZero n]

/-- `e.min()` (hf_solver.py:166), over all momenta and bands (there is at least one of each) -/
def eMin (p : Params n κ V) (s : State n κ) : ℝ :=
  (Finset.univ : Finset (κ × Fin n)).inf' Finset.univ_nonempty fun x => (p.eigv (s.ekMF x.1)).1 x.2

/-- `e.max()` (hf_solver.py:167) -/
def eMax (p : Params n κ V) (s : State n κ) : ℝ :=
  (Finset.univ : Finset (κ × Fin n)).sup' Finset.univ_nonempty fun x => (p.eigv (s.ekMF x.1)).1 x.2

/-- `update_chemical_potential` (hf_solver.py:153-171). `mu0` is accepted and not used. -/
def updateMu (p : Params n κ V) (s : State n κ) (N : ℝ) (_mu0 : Option ℝ) : Except String (State n κ) :=
  let lo := match p.muMin with | some m => m | none => eMin p s
  let hi := match p.muMax with | some m => m | none => eMax p s
  match p.brentq (targetFunction p s N) lo hi with
  | .error e => .error e
  | .ok mu => .ok { s with mu := mu }

/-- `update_momentum_density_matrix` (hf_solver.py:174-182) -/
def updateMomentumDensity (p : Params n κ V) (s : State n κ) : State n κ :=
  { s with rhok := momentumDensity p.beta s.mu (fun k => (p.eig (s.ekMF k)).1) (fun k => (p.eig (s.ekMF k)).2) }

/-- `update_density_matrix` (hf_solver.py:185-191) -/
def updateDensity (p : Params n κ V) (s : State n κ) : State n κ :=
  let s := updateMomentumDensity p s
  let s := { s with rho := density s.rhok }
  { s with ntot := ∑ a, s.rho a a }

/-- `update_total_energy` (hf_solver.py:222-231) with the three methods it calls -/
def updateTotalEnergy (p : Params n κ V) (s : State n κ) : State n κ :=
  -- update_kinetic_energy
  let s := updateMomentumDensity p s
  let s := { s with ekin := eKin p.ek s.rhok }
  -- update_interaction_energy
  let s := { s with eint := eInt p.U s.rho }
  let s := { s with etot := s.ekin + s.eint }
  -- update_non_int_free_energy
  let s := { s with omega0 := omega0 p.beta s.mu fun k => (p.eigv (s.ekMF k)).1 }
  { s with omega := (s.omega0 : ℂ) + s.eint }

/-- `density_matrix_step` (hf_solver.py:234-248): new state and returned vector -/
def densityStep (p : Params n κ V) (s : State n κ) (v : V) (N : Option ℝ) : Except String (State n κ × V) :=
  let rho := p.vec2mat v
  let s := updateMeanField p s rho
  let s := updateDispersion p s
  match (match N with | none => Except.ok s | some N => updateMu p s N (some s.mu)) with
  | .error e => .error e
  | .ok s =>
    let s := updateDensity p s
    .ok (s, p.mat2vec s.rho)

/-- `solve_setup` (hf_solver.py:251-272) -/
def solveSetup (p : Params n κ V) (s : State n κ) (N : ℝ) (M0 : Option (Matrix (Fin n) (Fin n) ℂ))
    (mu0 : Option ℝ) : Except String (State n κ × V) :=
  match (match mu0 with | none => updateMu p s N (some 0) | some m => Except.ok { s with mu := m }) with
  | .error e => .error e
  | .ok s =>
    let M0 := match M0 with | none => 0 | some M => M
    let s := { s with M := M0 }
    let s := updateDispersion p s
    match updateMu p s N none with
    | .error e => .error e
    | .ok s =>
      let s := updateDensity p s
      .ok (s, p.mat2vec s.rho)

/-- running a procedure that evaluates `density_matrix_step(x) - x` (hf_solver.py:373-375 and
hf_solver.py:413-415): every evaluation changes the state of the solver. -/
def runStrategy [Sub V] (p : Params n κ V) (N : Option ℝ) : Strategy V → State n κ → Except String (State n κ × V)
  | .ret x, s => .ok (s, x)
  | .eval x next, s =>
    match densityStep p s x N with
    | .error e => .error e
    | .ok (s', new) => runStrategy p N (next (new - x)) s'

/-- `solve_newton` (hf_solver.py:349-382) -/
def solveNewton [Sub V] (p : Params n κ V) (fsolve : V → Strategy V) (s : State n κ) (N : ℝ)
    (M0 : Option (Matrix (Fin n) (Fin n) ℂ)) (mu0 : Option ℝ) : Except String (State n κ) :=
  match solveSetup p s N M0 mu0 with
  | .error e => .error e
  | .ok (s, v0) =>
    match runStrategy p (some N) (fsolve v0) s with
    | .error e => .error e
    | .ok (s, v) =>
      let s := updateTotalEnergy p s
      match densityStep p s v none with
      | .error e => .error e
      | .ok (s, _) => .ok s

/-- `solve_newton_mu` (hf_solver.py:385-422) -/
def solveNewtonMu [Sub V] (p : Params n κ V) (fsolve : V → Strategy V) (s : State n κ) (mu : ℝ)
    (M0 : Option (Matrix (Fin n) (Fin n) ℂ)) : Except String (State n κ) :=
  let s := { s with mu := mu }
  let M0 := match M0 with | none => 0 | some M => M
  let s := { s with M := M0 }
  let s := updateDispersion p s
  let s := updateDensity p s
  match runStrategy p none (fsolve (p.mat2vec s.rho)) s with
  | .error e => .error e
  | .ok (s, v) =>
    let s := updateTotalEnergy p s
    match densityStep p s v none with
    | .error e => .error e
    | .ok (s, _) => .ok s

/-- the loop of `solve_iter` (hf_solver.py:320-340) -/
def solveLoop [AddCommGroup V] [Module ℝ V] (p : Params n κ V) (nrm : V → ℝ) (N mixing tol : ℝ) :
    ℕ → State n κ → V → List V → Except String (State n κ × List V)
  | 0, s, _, hist => .ok (s, hist)
  | fuel + 1, s, v, hist =>
    let hist := hist ++ [v]
    match densityStep p s v (some N) with
    | .error e => .error e
    | .ok (s, new) =>
      open Classical in
      if nrm v ≠ 0 ∧ nrm (v - new) / nrm v < tol then .ok (s, hist)
      else solveLoop p nrm N mixing tol fuel s ((1 - mixing) • v + mixing • new) hist

/-- `solve_iter` (hf_solver.py:275-346): final state and returned history -/
def solveIterState [AddCommGroup V] [Module ℝ V] (p : Params n κ V) (nrm : V → ℝ) (s : State n κ) (N : ℝ)
    (M0 : Option (Matrix (Fin n) (Fin n) ℂ)) (mu0 : Option ℝ) (nitermax : ℕ) (mixing tol : ℝ) :
    Except String (State n κ × List V) :=
  open Classical in
  if ¬ 0 ≤ mixing then .error "AssertionError"
  else if ¬ mixing ≤ 1 then .error "AssertionError"
  else
    match solveSetup p s N M0 mu0 with
    | .error e => .error e
    | .ok (s, v0) =>
      match solveLoop p nrm N mixing tol nitermax s v0 [] with
      | .error e => .error e
      | .ok (s, hist) => .ok (updateTotalEnergy p s, hist)

end

end Verif.HartreeFock
