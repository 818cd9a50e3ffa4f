import Verif.Eliashberg.Model
import Mathlib.Algebra.Order.Floor.Ring

/-!
# The eigenvalue solver of the Eliashberg equation on several MPI ranks, and its start vector

Model of `semi_random_initial_delta` and of the way `solve_eliashberg` runs its eigenvalue solver,
`/repo/python/triqs_tprf/eliashberg.py`.  Every rank runs the same Python program; the only communication are the
`mpi::all_reduce` calls inside the Eliashberg products.  Each rank therefore hands its own vector to the product.
-/

noncomputable section

namespace Verif.Eliashberg

open Complex Verif.Parallel Verif.Fourier Verif.Bubble

variable {d : ℕ} {n : Fin d → ℕ} [∀ i, NeZero (n i)] {o : Type*} [Fintype o] [DecidableEq o]

/-! ## The products when every rank passes its own vector -/

/-- `eliashberg_g_delta_g_product`, `/repo/c++/triqs_tprf/lattice/eliashberg.cpp:36-71`, called with the gap `delta r`
on rank `r`: each rank evaluates the loop body on its chunk of the mesh with its own gap, then the chunks are added. -/
def gDeltaGSpmd (ranks N Ng : ℕ) (lat : List (Lat n)) (g : ℤ → Lat n → o → o → ℂ)
    (delta : ℕ → ℤ → Lat n → o → o → ℂ) : Except EliErr (ℤ × Lat n → o → o → ℂ) :=
  if meshSize .fermion N > meshSize .fermion Ng then .error .greenMesh
  else .ok (allReduce ranks fun r => rankAssign (mpiView (gapMesh N lat) ranks r) fun p =>
    gdgPoint (g p.1 p.2) (g p.1 (-p.2)) (delta r p.1 p.2))

/-- `eliashberg_product`, `/repo/c++/triqs_tprf/lattice/eliashberg.cpp:134-169`, called with the gap `delta r` on rank
`r`.  After the first `all_reduce` the pair function is the same on all ranks. -/
def eliashbergProductSpmd (ranks N Ng NG : ℕ) (beta : ℝ) (lat : List (Lat n)) (gamma : ℤ → Lat n → T4 o)
    (g : ℤ → Lat n → o → o → ℂ) (delta : ℕ → ℤ → Lat n → o → o → ℂ) : Except EliErr (ℤ → Lat n → o → o → ℂ) :=
  if 2 * meshSize .fermion N > meshSize .boson NG then .error .gammaMesh
  else match gDeltaGSpmd ranks N Ng lat g delta with
    | .error e => .error e
    | .ok F =>
      let out : Lat n → ℤ → o → o → ℂ := distributedAssign ranks lat fun k w a b =>
        ((gapMesh N lat).map fun p => gammaF (gamma (w - p.1) (k - p.2)) (F p) a b).sum
          / (beta * lat.length)
      .ok fun w k => out k w

/-- `eliashberg_product_fft`, `/repo/c++/triqs_tprf/lattice/eliashberg.cpp:267-293`, called with the gap `delta r` on
rank `r`. -/
def eliashbergProductFFTSpmd (ranks N Ng L LG : ℕ) (T : Transforms) (lat : List (Lat n))
    (gammaDyn : ℕ → Lat n → T4 o) (gammaConst : Lat n → T4 o) (g : ℤ → Lat n → o → o → ℂ)
    (delta : ℕ → ℤ → Lat n → o → o → ℂ) : Except EliErr (ℤ → Lat n → o → o → ℂ) :=
  match gDeltaGSpmd ranks N Ng lat g delta with
  | .error e => .error e
  | .ok F =>
    match dynamicGammaF ranks L LG lat gammaDyn (fTr T F) with
    | .error e => .error e
    | .ok dyn =>
      let const := constantGammaF gammaConst (fTr T F)
      .ok fun w => rToK fun r a b => T.toFreq (fun t => dyn (t, r) a b) w + const r a b

/-! ## Running a solver on all ranks -/

/-- a solver that only touches the operator through `matvec`: from the answers received so far it decides on the next
vector to pass to `matvec` or on its result (`power_method_LR` and `scipy.sparse.linalg.eigs` are of this form,
`/repo/python/triqs_tprf/eliashberg.py:299-398`) -/
abbrev Prog (V R : Type*) := List V → V ⊕ R

/-- what happens to the ranks of a run -/
inductive RunOut (E R : Type*) where
  /-- every rank returns -/
  | done (res : ℕ → Option R)
  /-- some ranks wait in `mpi::all_reduce`, others have returned -/
  | deadlock
  /-- the product raises on every rank -/
  | raised (e : E)
  /-- still running -/
  | running

/-- the query of a program, or zero if it has returned -/
def Prog.query {V R : Type*} [Zero V] (p : Prog V R) (h : List V) : V := (p h).elim id fun _ => 0

/-- all ranks run their own copy of the solver; `matvec` is collective and hands the same answer to every rank,
`/repo/python/triqs_tprf/eliashberg.py:167-189` -/
def spmdRun {V R E : Type*} [Zero V] (ranks : ℕ) (matvec : (ℕ → V) → Except E V) (prog : ℕ → Prog V R) :
    ℕ → List V → RunOut E R
  | 0, _ => .running
  | fuel + 1, h =>
    if ∀ r < ranks, (prog r h).isLeft then
      match matvec fun r => (prog r).query h with
      | .error e => .raised e
      | .ok y => spmdRun ranks matvec prog fuel (h ++ [y])
    else if ∃ r < ranks, (prog r h).isLeft then .deadlock
    else .done fun r => (prog r h).getRight?

/-- the same solver in a serial run -/
def serialRun {V R E : Type*} [Zero V] (matvec : V → Except E V) (prog : Prog V R) : ℕ → List V → RunOut E R
  | 0, _ => .running
  | fuel + 1, h =>
    match prog h with
    | .inr res => .done fun _ => some res
    | .inl v =>
      match matvec v with
      | .error e => .raised e
      | .ok y => serialRun matvec prog fuel (h ++ [y])

/-! ## The start vector -/

/-- the global generator of `numpy.random` -/
structure Rng where
  /-- internal state -/
  S : Type
  /-- state after seeding with an integer -/
  seeded : ℕ → S
  /-- the number drawn from a state -/
  value : S → ℝ
  /-- the state after drawing one number -/
  next : S → S

/-- `np.random.seed(seed)`: `seed=None` takes fresh entropy from the operating system, whatever the state was. -/
def Rng.reseed (R : Rng) (_current entropy : R.S) : Option ℕ → R.S
  | some s => R.seeded s
  | none => entropy

/-- the `j`-th of the numbers drawn next -/
def Rng.draw (R : Rng) (s : R.S) (j : ℕ) : ℝ := R.value (R.next^[j] s)

/-- `np.random.random` asked for a negative number of values raises a `ValueError` -/
inductive StartErr where
  | negativeDimension
  deriving DecidableEq, Repr

variable {X : Type*} [Fintype X]

/-- `freq_data`, `/repo/python/triqs_tprf/eliashberg.py:290`: mean of the absolute value of the real part over all
axes but the first -/
def freqData (g : ℤ → X → ℂ) (w : ℤ) : ℝ := (∑ x, |(g w x).re|) / Fintype.card X

/-- `not_randomized`, `/repo/python/triqs_tprf/eliashberg.py:291`, for a frequency mesh with `2 N` points and
`nr_factor ≥ 0` (`int` truncates) -/
def notRandomized (N : ℕ) (nr : ℝ) : ℤ := ⌊nr * (2 * N : ℕ) / 2⌋

/-- `semi_random_initial_delta`, `/repo/python/triqs_tprf/eliashberg.py:256-297`.  `X` indexes all axes but the first
one, `pos` is the position of an entry in C order, the frequency `w` is at position `w + N` of the first axis.  The
result comes with the final state of the global generator. -/
def semiRandomInitialDelta (R : Rng) (current entropy : R.S) (N : ℕ) (pos : X → ℕ) (nr : ℝ) (seed : Option ℕ)
    (g : ℤ → X → ℂ) : Except StartErr ((ℤ → X → ℂ) × R.S) :=
  let s := R.reseed current entropy seed
  let start := notRandomized N nr
  let stop := (2 * N : ℕ) - notRandomized N nr
  if stop - start < 0 then .error .negativeDimension
  else
    let s' := R.next^[Fintype.card X] s
    let freq : ℤ → ℝ := fun w =>
      if start ≤ w + N ∧ w + N < stop then freqData g w * R.draw s' (w + N - start).toNat else freqData g w
    .ok (fun w x => ((freq w * R.draw s (pos x) : ℝ) : ℂ), R.next^[(stop - start).toNat] s')

/-- the start vector on rank `r`, `/repo/python/triqs_tprf/eliashberg.py:174-176`: the given one, or one drawn with
`seed=None` -/
def startVector (R : Rng) (current entropy : ℕ → R.S) (N : ℕ) (pos : Lat n × o × o → ℕ)
    (given : Option (ℤ → Lat n → o → o → ℂ)) (g : ℤ → Lat n → o → o → ℂ) (r : ℕ) :
    Except StartErr (ℤ → Lat n → o → o → ℂ) :=
  match given with
  | some v => .ok v
  | none =>
    match semiRandomInitialDelta R (current r) (entropy r) N pos (1 / 2) none fun w x => g w x.1 x.2.1 x.2.2 with
    | .error e => .error e
    | .ok (v, _) => .ok fun w k a b => v w (k, a, b)

end Verif.Eliashberg
