import Verif.Gw.Model
import Verif.Dyson.Model
import Verif.Rpa.Model
import Verif.HartreeFock.Solver
import Mathlib.Order.ConditionallyCompleteLattice.Finset

/-!
# The self consistent GW solver

Model of `GWSolver`, `/repo/python/triqs_tprf/gw_solver.py:68-403`, on Matsubara meshes.  The object is a record of the
attributes that `solve_iter` reads and writes.  Printing, the timer, `calc_real_space` and `calc_real_freq` are left out.
Transforms between frequency and time and the density functional are arbitrary (`Pieces`), `root_scalar(method='brentq')`
is any function (`HartreeFock.Brentq`); `BrentSpec` is its documented behaviour.
-/

noncomputable section

namespace Verif.Gw

open Complex Verif.Parallel Verif.Fourier Verif.Bubble Verif.Dyson Verif.Rpa

variable {d : ℕ} {n : Fin d → ℕ} [∀ i, NeZero (n i)] {o : Type} [Fintype o] [DecidableEq o]

/-- What the solver is given: constructor arguments `e_k`, `V_k`, `wmesh`, `N_fix`, `mu_bracket`
(`/repo/python/triqs_tprf/gw_solver.py:71-97`) and the external pieces. -/
structure SolverParams {d : ℕ} (n : Fin d → ℕ) (o : Type) where
  /-- number of MPI ranks -/
  ranks : ℕ
  /-- points of the momentum mesh -/
  lat : List (Lat n)
  /-- indices of `wmesh` -/
  freqs : List ℤ
  /-- indices of the bosonic mesh of `P_wk` -/
  bfreqs : List ℤ
  /-- `len(wmesh) // 2` -/
  nw : ℕ
  /-- `wmesh.beta` -/
  beta : ℝ
  /-- number of intervals of the imaginary time mesh -/
  L : ℕ
  /-- value of a fermionic frequency -/
  val : ℤ → ℂ
  /-- transforms and density -/
  pieces : Pieces
  /-- bosonic time → frequency (`chi_wr_from_chi_tr`) -/
  boseFreq : (ℕ → ℂ) → ℤ → ℂ
  /-- dispersion -/
  e : Lat n → Matrix o o ℂ
  /-- bare interaction -/
  V : Lat n → Bubble.T4 o
  /-- `N_fix`; `False` and `0.0` are both "not fixed" (`if not N_fix`, line 259) -/
  nFix : ℝ
  /-- `mu_bracket` -/
  bracket : ℝ × ℝ
  /-- `scipy.optimize.root_scalar(…, method='brentq', rtol=N_tol)` -/
  brentq : HartreeFock.Brentq

variable (p : SolverParams n o)

/-! ## Steps -/

/-- `calc_rho_k`, `/repo/python/triqs_tprf/gw_solver.py:184-185` -/
def SolverParams.rhoK (g : G n o) : Lat n → o → o → ℂ := Gw.rhoK p.ranks p.lat (densityOf p.pieces) g

/-- `calc_rho_r`, `/repo/python/triqs_tprf/gw_solver.py:189-192` -/
def SolverParams.rhoR (g : G n o) : Lat n → o → o → ℂ := kToR (p.rhoK g)

/-- `calc_total_density(calc_rho_loc(rho_r))`, `/repo/python/triqs_tprf/gw_solver.py:173-180` -/
def totalDensity (rhoR : Lat n → o → o → ℂ) : ℝ := ∑ a, (rhoR 0 a a).re

/-- `GWSolver.hartree_sigma`, `/repo/python/triqs_tprf/gw_solver.py:196-197` -/
def SolverParams.sigmaHartree (g : G n o) : Lat n → o → o → ℂ := rToK (hartreeR p.V (p.rhoR g))

/-- `GWSolver.fock_sigma`, `/repo/python/triqs_tprf/gw_solver.py:201-202`; `V_r` is line 85. -/
def SolverParams.sigmaFock (g : G n o) : Lat n → o → o → ℂ :=
  rToK (fockR p.ranks p.lat (kToR p.V) (p.rhoR g))

/-- `fourier_wr_to_tr(fourier_wk_to_wr(g_wk))` -/
def SolverParams.gTr (g : G n o) : ℕ → Lat n → o → o → ℂ :=
  fun t r a b => p.pieces.gToTau (fun w => kToR (g w) r a b) t

/-- `imtime_bubble_chi0_wk(g_wk, nw=nw)`, `/repo/python/triqs_tprf/lattice_utils.py:191-266`, without
`save_memory`: for `nw == 1` only the zero frequency, from the trapezoidal rule. -/
def SolverParams.chi0 (g : G n o) : ℤ → Lat n → Bubble.T4 o :=
  if p.nw = 1 then fun w => if w = 0 then rToK (chi0W0r p.ranks p.beta p.L p.lat (p.gTr g)) else 0
  else fun w => rToK fun r a b c d =>
    p.boseFreq (fun t => chi0tr p.ranks p.L p.lat (p.gTr g) r t a b c d) w

/-- `GWSolver.polarization`, `/repo/python/triqs_tprf/gw_solver.py:229-232` -/
def SolverParams.polarization (g : G n o) : ℤ → Lat n → Bubble.T4 o := fun w k => -p.chi0 g w k

/-- `GWSolver.screened_interaction`, `/repo/python/triqs_tprf/gw_solver.py:236-241` (the meshes agree by construction) -/
def SolverParams.screened (spinless : Bool) (P : ℤ → Lat n → Bubble.T4 o) : ℤ × Lat n → Bubble.T4 o :=
  let chi : ℤ × Lat n → Bubble.T4 o := fun x => if spinless then (2 : ℂ) • P x.1 x.2 else P x.1 x.2
  distributedAssign p.ranks (prodMesh p.bfreqs p.lat) fun x => screenedOptPoint (chi x) (p.V x.2)

/-- `GWSolver.susceptibiltiy`, `/repo/python/triqs_tprf/gw_solver.py:245-247`: the routine for the screened interaction
from a generalised susceptibility with `W` as susceptibility and `P` as (dynamic) interaction. -/
def SolverParams.susceptibility (P : ℤ → Lat n → Bubble.T4 o) (W : ℤ × Lat n → Bubble.T4 o) :
    ℤ × Lat n → Bubble.T4 o :=
  distributedAssign p.ranks (prodMesh p.bfreqs p.lat) fun x =>
    screenedGeneralizedPoint (W x) ((Bare.dynamic P).at x.1 x.2)

/-- subtraction of the bare interaction at every bosonic frequency, `/repo/python/triqs_tprf/gw_solver.py:342-344` -/
def SolverParams.wDyn (W : ℤ × Lat n → Bubble.T4 o) : ℤ × Lat n → Bubble.T4 o :=
  p.bfreqs.foldl (fun acc w => fun x => if x.1 = w then acc x - p.V x.2 else acc x) W

/-- `GWSolver.gw_dynamic_sigma`, `/repo/python/triqs_tprf/gw_solver.py:206-225`; both time meshes come from frequency
meshes with the same number of frequencies. -/
def SolverParams.sigmaDyn (W : ℤ × Lat n → Bubble.T4 o) (g : G n o) : ℤ → Lat n → o → o → ℂ :=
  let WTr : ℕ → Lat n → Bubble.T4 o := fun t r a b c d =>
    p.pieces.wToTau (fun w => kToR (fun k => W (w, k)) r a b c d) t
  let mesh := (List.range (p.L + 1)).product p.lat
  let s : ℕ × Lat n → o → o → ℂ :=
    distributedAssign p.ranks mesh fun x => gwPoint (WTr x.1 x.2) (p.gTr g x.1 x.2)
  fun w k a b => rToK (fun r a b => p.pieces.toFreq (fun t => s (t, r) a b) w) k a b

/-- `_dyson_equation_dispatch`, `/repo/python/triqs_tprf/gw_solver.py:280-289` -/
def SolverParams.dispatch (mu : ℝ) (sigma : Option (ℤ → Lat n → o → o → ℂ)) : G n o :=
  match sigma with
  | some s => fun w k => latticeDysonGXk p.ranks (mu : ℂ) p.val p.freqs p.lat p.e
      (.lattice fun w k => Matrix.of (s w k)) 0 (w, k)
  | none => fun w k => latticeDysonG0Xk p.ranks (mu : ℂ) p.val p.freqs p.lat p.e (w, k)

/-- `target_function`, `/repo/python/triqs_tprf/gw_solver.py:264-269` -/
def SolverParams.target (sigma : Option (ℤ → Lat n → o → o → ℂ)) (mu : ℝ) : ℝ :=
  totalDensity (p.rhoR (p.dispatch mu sigma)) - p.nFix

/-- `dyson_equation`, `/repo/python/triqs_tprf/gw_solver.py:257-277` -/
def SolverParams.dyson (mu : ℝ) (sigma : Option (ℤ → Lat n → o → o → ℂ)) : Except String (G n o × ℝ) :=
  open Classical in
  if p.nFix = 0 then .ok (p.dispatch mu sigma, mu)
  else match p.brentq (p.target sigma) p.bracket.1 p.bracket.2 with
    | .error err => .error err
    | .ok mu' => .ok (p.dispatch mu' sigma, mu')

/-! ## State and driver -/

/-- attributes of the solver; those that exist only after `solve_iter` are `Option` -/
structure SolverState {d : ℕ} (n : Fin d → ℕ) (o : Type) where
  mu : ℝ
  g : G n o
  sigma : ℤ → Lat n → o → o → ℂ
  rhoK : Option (Lat n → o → o → ℂ) := none
  rhoR : Option (Lat n → o → o → ℂ) := none
  N : Option ℝ := none
  sigmaHartree : Option (Lat n → o → o → ℂ) := none
  sigmaFock : Option (Lat n → o → o → ℂ) := none
  sigmaDyn : Option (ℤ → Lat n → o → o → ℂ) := none
  P : Option (ℤ → Lat n → Bubble.T4 o) := none
  W : Option (ℤ × Lat n → Bubble.T4 o) := none
  wDyn : Option (ℤ × Lat n → Bubble.T4 o) := none
  chi : Option (ℤ × Lat n → Bubble.T4 o) := none

/-- `__init__`, `/repo/python/triqs_tprf/gw_solver.py:90-106` -/
def SolverParams.init (mu : Option ℝ) (g : Option (G n o)) : Except String (SolverState n o) :=
  let mu1 := mu.getD 0
  match p.dyson mu1 none with
  | .error err => .error err
  | .ok (g0, mu0) =>
    match g with
    | none => .ok { mu := mu0, g := g0, sigma := 0 }
    | some g1 => .ok { mu := mu1, g := g1, sigma := 0 }

/-- default of `mu_bracket`, `/repo/python/triqs_tprf/gw_solver.py:92-93`: smallest and largest real part of all matrix
elements of the dispersion -/
def defaultBracket (e : Lat n → Matrix o o ℂ) : ℝ × ℝ :=
  (⨅ x : Lat n × o × o, (e x.1 x.2.1 x.2.2).re, ⨆ x : Lat n × o × o, (e x.1 x.2.1 x.2.2).re)

/-- switches of `solve_iter` -/
structure Flags where
  hartree : Bool := true
  fock : Bool := true
  gw : Bool := true
  spinless : Bool := false

/-- local variables of the loop after one pass -/
structure Sweep {d : ℕ} (n : Fin d → ℕ) (o : Type) where
  g : G n o
  mu : ℝ
  sigma : ℤ → Lat n → o → o → ℂ
  hartree : Lat n → o → o → ℂ
  fock : Lat n → o → o → ℂ
  dyn : ℤ → Lat n → o → o → ℂ
  P : ℤ → Lat n → Bubble.T4 o
  W : ℤ × Lat n → Bubble.T4 o
  wDyn : ℤ × Lat n → Bubble.T4 o

/-- one pass of the loop, `/repo/python/triqs_tprf/gw_solver.py:320-351`; the fields that the code computes only under a
switch are used only under the same switch. -/
def SolverParams.sweep (f : Flags) (mu : ℝ) (g : G n o) : Except String (Sweep n o) :=
  let sH := p.sigmaHartree g
  let sF := p.sigmaFock g
  let P := p.polarization g
  let W := p.screened f.spinless P
  let Wd := p.wDyn W
  let sD := p.sigmaDyn Wd g
  let s0 : ℤ → Lat n → o → o → ℂ := fun _ _ => 0
  let s1 := if f.hartree then fun w k => s0 w k + sH k else s0
  let s2 := if f.fock then fun w k => s1 w k + sF k else s1
  let s3 := if f.gw then fun w k => s2 w k + sD w k else s2
  match p.dyson mu (some s3) with
  | .error err => .error err
  | .ok (g', mu') => .ok ⟨g', mu', s3, sH, sF, sD, P, W, Wd⟩

/-- `diff < tol`, `/repo/python/triqs_tprf/gw_solver.py:355,361`; the first time the old function is infinite. -/
def SolverParams.close (tol : ℝ) (old : Option (G n o)) (g : G n o) : Prop :=
  match old with
  | none => False
  | some h => ∀ w ∈ p.freqs, ∀ k ∈ p.lat, ∀ a b, ‖g w k a b - h w k a b‖ < tol

open Classical in
/-- the loop, `/repo/python/triqs_tprf/gw_solver.py:310-362`, with at most `fuel` more passes -/
def SolverParams.loop (f : Flags) (tol : ℝ) :
    ℕ → ℝ → G n o → Option (G n o) → Option (Sweep n o) → Except String (Option (Sweep n o))
  | 0, _, _, _, last => .ok last
  | fuel + 1, mu, g, old, _ =>
    match p.sweep f mu g with
    | .error err => .error err
    | .ok s => if p.close tol old s.g then .ok (some s)
      else SolverParams.loop f tol fuel s.mu s.g (some s.g) (some s)

/-- the assignments after the loop, `/repo/python/triqs_tprf/gw_solver.py:364-381` (and the attributes set in the loop) -/
def SolverParams.finish (f : Flags) (s : SolverState n o) (last : Option (Sweep n o)) :
    Except String (SolverState n o) :=
  match last with
  | none =>
    -- no pass at all: `W_wk` is not bound
    if f.gw then .error "UnboundLocalError"
    else .ok { s with
      sigma := 0
      rhoK := some (p.rhoK s.g), rhoR := some (p.rhoR s.g), N := some (totalDensity (p.rhoR s.g)) }
  | some t => .ok
    { mu := t.mu
      g := t.g
      sigma := t.sigma
      rhoK := some (p.rhoK t.g)
      rhoR := some (p.rhoR t.g)
      N := some (totalDensity (p.rhoR t.g))
      sigmaHartree := if f.hartree then some t.hartree else s.sigmaHartree
      sigmaFock := if f.fock then some t.fock else s.sigmaFock
      sigmaDyn := if f.gw then some t.dyn else s.sigmaDyn
      P := if f.gw then some t.P else s.P
      W := if f.gw then some t.W else s.W
      wDyn := if f.gw then some t.wDyn else s.wDyn
      chi := if f.gw then some (p.susceptibility t.P t.W) else s.chi }

/-- `solve_iter`, `/repo/python/triqs_tprf/gw_solver.py:292-385` -/
def SolverParams.solveIter (f : Flags) (tol : ℝ) (maxiter : ℕ) (s : SolverState n o) :
    Except String (SolverState n o) :=
  match p.loop f tol maxiter s.mu s.g none none with
  | .error err => .error err
  | .ok last => p.finish f s last

end Verif.Gw
