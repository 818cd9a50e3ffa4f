import Verif.Gw.Model
import Verif.Rpa.Model
import Verif.RpaTensor.Model
import Mathlib.Analysis.Complex.Basic

/-!
# Linearised Eliashberg equation

Model of `/repo/c++/triqs_tprf/lattice/eliashberg.cpp`, `/repo/python/triqs_tprf/eliashberg.py` and of
`create_eliashberg_ingredients` in `/repo/python/triqs_tprf/utilities.py`.

Fermionic frequencies are integers `m` (frequency `(2m+1)π/β`), bosonic ones integers (`2mπ/β`).  A fermionic mesh
with `N` positive frequencies has `2 N` points, a bosonic one `2 N - 1` points.  The routines for DLR meshes are
modelled in `Verif.Dlr`; here only the decision logic of `preprocess_gamma_for_fft` is.
-/

noncomputable section

namespace Verif.Eliashberg

open Complex Verif.Parallel Verif.Fourier Verif.Bubble

variable {d : ℕ} {n : Fin d → ℕ} [∀ i, NeZero (n i)] {o : Type*} [Fintype o] [DecidableEq o]

/-- errors raised by the products -/
inductive EliErr where
  | greenMesh | gammaMesh | tauMesh
  deriving DecidableEq, Repr

/-- number of points of a frequency mesh -/
def meshSize : Stat → ℕ → ℕ
  | .fermion, N => 2 * N
  | .boson, N => 2 * N - 1

/-- points of the product mesh of the gap -/
def gapMesh (N : ℕ) (lat : List (Lat n)) : List (ℤ × Lat n) := (wIndices .fermion N).product lat

/-! ## Products -/

/-- the loop body of `eliashberg_g_delta_g_product`, `/repo/c++/triqs_tprf/lattice/eliashberg.cpp:56-60`; `gm` is the
Green's function at the same frequency and opposite momentum. -/
def gdgPoint (g gm delta : o → o → ℂ) : o → o → ℂ := fun d c =>
  ∑ e, ∑ f, g c f * (starRingEnd ℂ) (gm e d) * delta e f

/-- `eliashberg_g_delta_g_product`, `/repo/c++/triqs_tprf/lattice/eliashberg.cpp:36-71`; the gap has `N`, the Green's
function `Ng` positive frequencies. -/
def gDeltaG (ranks N Ng : ℕ) (lat : List (Lat n)) (g delta : ℤ → Lat n → o → o → ℂ) :
    Except EliErr (ℤ × Lat n → o → o → ℂ) :=
  if meshSize .fermion N > meshSize .fermion Ng then .error .greenMesh
  else .ok (distributedAssign ranks (gapMesh N lat) fun p =>
    gdgPoint (g p.1 p.2) (g p.1 (-p.2)) (delta p.1 p.2))

/-- the contraction `-0.5 * Gamma(c, a, d, b) * F(d, c)`,
`/repo/c++/triqs_tprf/lattice/eliashberg.cpp:160,202,251`. -/
def gammaF (gamma : T4 o) (F : o → o → ℂ) : o → o → ℂ := fun a b =>
  ∑ c, ∑ d, -(1 / 2) * gamma c a d b * F d c

/-- `eliashberg_product`, `/repo/c++/triqs_tprf/lattice/eliashberg.cpp:134-169`; the vertex has `NΓ` non-negative
frequencies. -/
def eliashbergProduct (ranks N Ng NG : ℕ) (beta : ℝ) (lat : List (Lat n)) (gamma : ℤ → Lat n → T4 o)
    (g delta : ℤ → Lat n → o → o → ℂ) : Except EliErr (ℤ → Lat n → o → o → ℂ) :=
  if 2 * meshSize .fermion N > meshSize .boson NG then .error .gammaMesh
  else match gDeltaG ranks N Ng lat g delta with
    | .error e => .error e
    | .ok F =>
      let out : Lat n → ℤ → o → o → ℂ := distributedAssign ranks lat fun k w a b =>
        ((gapMesh N lat).map fun p => gammaF (gamma (w - p.1) (k - p.2)) (F p) a b).sum
          / (beta * lat.length)
      .ok fun w k => out k w

/-- imaginary frequency ↔ imaginary time transforms of one matrix element of fermionic functions
(`fourier_wr_to_tr`, `fourier_tr_to_wr`) -/
structure Transforms where
  /-- frequency → time -/
  toTau : (ℤ → ℂ) → ℕ → ℂ
  /-- time → frequency -/
  toFreq : (ℕ → ℂ) → ℤ → ℂ

/-- `eliashberg_dynamic_gamma_f_product`, `/repo/c++/triqs_tprf/lattice/eliashberg.cpp:225-264`; `L + 1` and `LG + 1`
are the numbers of points of the two time meshes. -/
def dynamicGammaF (ranks L LG : ℕ) (lat : List (Lat n)) (gamma : ℕ → Lat n → T4 o)
    (F : ℕ → Lat n → o → o → ℂ) : Except EliErr (ℕ × Lat n → o → o → ℂ) :=
  if L + 1 ≠ LG + 1 then .error .tauMesh
  else .ok (distributedAssign ranks ((List.range (L + 1)).product lat) fun p =>
    gammaF (gamma p.1 p.2) (F p.1 p.2))

/-- `eliashberg_constant_gamma_f_product`, `/repo/c++/triqs_tprf/lattice/eliashberg.cpp:191-206`; `F_t(0)` is the value
at the first time point. -/
def constantGammaF (gamma : Lat n → T4 o) (F : ℕ → Lat n → o → o → ℂ) : Lat n → o → o → ℂ := fun r =>
  gammaF (gamma r) (F 0 r)

/-- `F_tr`, `/repo/c++/triqs_tprf/lattice/eliashberg.cpp:271-273,301-303` -/
def fTr (T : Transforms) (F : ℤ × Lat n → o → o → ℂ) : ℕ → Lat n → o → o → ℂ := fun t r a b =>
  T.toTau (fun w => kToR (fun k => F (w, k)) r a b) t

/-- `eliashberg_product_fft`, `/repo/c++/triqs_tprf/lattice/eliashberg.cpp:267-293`. -/
def eliashbergProductFFT (ranks N Ng L LG : ℕ) (T : Transforms) (lat : List (Lat n))
    (gammaDyn : ℕ → Lat n → T4 o) (gammaConst : Lat n → T4 o) (g delta : ℤ → Lat n → o → o → ℂ) :
    Except EliErr (ℤ → Lat n → o → o → ℂ) :=
  match gDeltaG ranks N Ng lat g delta with
  | .error e => .error e
  | .ok F =>
    match dynamicGammaF ranks L LG lat gammaDyn (fTr T F) with
    | .error e => .error e
    | .ok dyn =>
      let const := constantGammaF gammaConst (fTr T F)
      .ok fun w => rToK fun r a b => T.toFreq (fun t => dyn (t, r) a b) w + const r a b

/-- `eliashberg_product_fft_constant`, `/repo/c++/triqs_tprf/lattice/eliashberg.cpp:298-325`. -/
def eliashbergProductFFTConst (ranks N Ng : ℕ) (T : Transforms) (lat : List (Lat n))
    (gammaConst : Lat n → T4 o) (g delta : ℤ → Lat n → o → o → ℂ) :
    Except EliErr (ℤ → Lat n → o → o → ℂ) :=
  match gDeltaG ranks N Ng lat g delta with
  | .error e => .error e
  | .ok F => .ok fun _ => rToK (constantGammaF gammaConst (fTr T F))

/-- `dynamic_and_constant_to_tr`, `/repo/c++/triqs_tprf/lattice/eliashberg.cpp:171-179`; `toTau` is the bosonic
frequency → time transform. -/
def dynamicAndConstantToTr (toTau : (ℤ → ℂ) → ℕ → ℂ) (dyn : ℤ → Lat n → T4 o) (const : Lat n → T4 o) :
    (ℕ → Lat n → T4 o) × (Lat n → T4 o) :=
  (fun t r a b c d => toTau (fun w => kToR (dyn w) r a b c d) t, kToR const)

/-! ## The transforms without tail corrections -/

/-- the transforms of `/repo/c++/triqs_tprf/fourier/fourier_matsubara.cpp` with vanishing fitted moments, for the gap:
`N` positive frequencies, `L + 1` times -/
def plainTransforms (beta : ℝ) (L N : ℕ) : Transforms where
  toTau y := match wToTau .fermion beta L N 0 0 0 y with
    | .ok x => x
    | .error _ => 0
  toFreq z := match tauToW .fermion beta L N 0 0 z with
    | .ok x => x
    | .error _ => 0

/-- the same for the vertex -/
def plainGammaToTau (beta : ℝ) (L NG : ℕ) (x : ℤ → ℂ) : ℕ → ℂ :=
  match wToTau .boson beta L NG 0 0 0 x with
  | .ok x => x
  | .error _ => 0

/-! ## Vertex preparation -/

/-- what Python passes as `Gamma_pp_const_k` (`/repo/python/triqs_tprf/eliashberg.py:196-255`) -/
inductive Const (K T : Type*) where
  /-- `None` -/
  | none
  /-- an object of type `float` -/
  | float (x : T)
  /-- a NumPy array, after broadcasting to the momentum mesh -/
  | array (x : K → T)
  /-- a Green's function on the momentum mesh -/
  | gf (x : K → T)
  /-- any other object: `int`, `complex`, NumPy scalars, ... -/
  | other (x : T)

/-- `preprocess_gamma_for_fft` up to the call of `dynamic_and_constant_to_tr`, imaginary frequency mesh,
`/repo/python/triqs_tprf/eliashberg.py:236-249`; `fit` is the pair returned by
`split_into_dynamic_wk_and_constant_k`. -/
def preprocess {W K T : Type*} [Sub T] (fit : (W → K → T) × (K → T)) (gamma : W → K → T) (c : Const K T) :
    (W → K → T) × (K → T) :=
  match c with
  | .float x => (fun w k => gamma w k - x, fun _ => x)
  | .array x => (fun w k => gamma w k - x k, x)
  | .gf x => (fun w k => gamma w k - x k, x)
  | .none => fit
  | .other _ => fit

/-- the branch for DLR meshes, `/repo/python/triqs_tprf/eliashberg.py:220-234`; `none` is an exception (the constant
has to be a Green's function). -/
def preprocessDlr {W K T : Type*} [Sub T] [Zero T] (gamma : W → K → T) (c : Const K T) :
    Option ((W → K → T) × (K → T)) :=
  match c with
  | .none => some (fun w k => gamma w k - 0, fun _ => 0)
  | .gf x => some (fun w k => gamma w k - x k, x)
  | _ => Option.none

/-- the loop body of `construct_phi_wk`, `/repo/c++/triqs_tprf/lattice/eliashberg.cpp:343-357`; the grouped views are
not swapped, `Verif.Nda.groupView_01_32`. -/
def phiPoint (chi U : T4 o) : T4 o :=
  Rpa.matTensor (Rpa.pairMat U * Rpa.pairMat chi * Rpa.pairMat U)

/-- `construct_phi_wk`, `/repo/c++/triqs_tprf/lattice/eliashberg.cpp:328-361`. -/
def constructPhi {P : Type*} [DecidableEq P] (ranks : ℕ) (mesh : List P) (chi : P → T4 o) (U : T4 o) : P → T4 o :=
  distributedAssign ranks mesh fun p => phiPoint (chi p) U

/-- `construct_gamma_singlet_rpa` at one mesh point, `/repo/python/triqs_tprf/eliashberg.py:488-494`; the transposition
`[0, 1, 4, 3, 2, 5]` exchanges the first and third orbital index. -/
def gammaSinglet (Ud Um phid phim : T4 o) : T4 o :=
  let x : T4 o := fun a b c d => 3 * (starRingEnd ℂ) (phim a b c d) + (starRingEnd ℂ) (phid a b c d)
  let y : T4 o := fun a b c d => x c b a d
  fun a b c d => y a b c d + ((1 / 2) * Ud a b c d + (3 / 2) * Um a b c d)

/-- `construct_gamma_triplet_rpa` at one mesh point, `/repo/python/triqs_tprf/eliashberg.py:543-549`. -/
def gammaTriplet (Ud Um phid phim : T4 o) : T4 o :=
  let x : T4 o := fun a b c d => -(starRingEnd ℂ) (phim a b c d) - (starRingEnd ℂ) (phid a b c d)
  let y : T4 o := fun a b c d => x c b a d
  fun a b c d => y a b c d + (-(1 / 2) * Ud a b c d + (1 / 2) * Um a b c d)

/-- what `create_eliashberg_ingredients` returns (without the Green's function) -/
structure Ingredients (P : Type*) (m : ℕ) where
  chiD : P → T4 (Fin m)
  chiM : P → T4 (Fin m)
  Ud : T4 (Fin m)
  Um : T4 (Fin m)
  gamma : P → T4 (Fin m)

/-- `create_eliashberg_ingredients`, `/repo/python/triqs_tprf/utilities.py:186-206`, from the bubble onwards. -/
def createIngredients {P : Type*} [DecidableEq P] {m : ℕ} (ranks : ℕ) (mesh : List P) (U Up J Jp : ℂ)
    (chi0 : P → T4 (Fin m)) : Ingredients P m :=
  let Ud := RpaTensor.kanamoriCharge m U Up J Jp
  let Um := RpaTensor.kanamoriSpin m U Up J Jp
  let chiD := Rpa.solveRpaPH ranks mesh chi0 Ud
  let chiM := Rpa.solveRpaPH ranks mesh chi0 fun a b c d => -Um a b c d
  let phiD := constructPhi ranks mesh chiD Ud
  let phiM := constructPhi ranks mesh chiM Um
  ⟨chiD, chiM, Ud, Um, fun p => gammaSinglet Ud Um (phiD p) (phiM p)⟩

/-! ## Power method -/

variable {ι : Type*} [Fintype ι]

/-- `np.linalg.norm` -/
def norm2 (v : ι → ℂ) : ℝ := Real.sqrt (∑ i, ‖v i‖ ^ 2)

open scoped Classical in
/-- `iteration`, `/repo/python/triqs_tprf/eliashberg.py:361-365`; `none` stands for a vector of NaN (division by a
vanishing norm). -/
def iteration (A : (ι → ℂ) → ι → ℂ) (offset : ℝ) (v : ι → ℂ) : Option (ℝ × (ι → ℂ)) :=
  let w : ι → ℂ := fun i => A v i - offset * v i
  if norm2 w = 0 then none else some (norm2 w + offset, fun i => w i / norm2 w)

/-- the convergence criterion, `/repo/python/triqs_tprf/eliashberg.py:373-378`; the maximum of a (non empty) array is
within the tolerance if every element is. -/
def converged (tol : ℝ) (v w : ι → ℂ) : Prop := (∀ i, ‖v i + w i‖ ≤ tol) ∨ ∀ i, ‖v i - w i‖ ≤ tol

open scoped Classical in
/-- the `while` loop, `/repo/python/triqs_tprf/eliashberg.py:370-383`, with `fuel + 1` passes left; `it` counts the
passes made.  After a NaN vector no comparison succeeds and the loop runs into the limit. -/
def powerLoop (A : (ι → ℂ) → ι → ℂ) (offset tol : ℝ) : ℕ → ℕ → (ι → ℂ) → Option (ℝ × (ι → ℂ) × ℕ)
  | fuel, it, v =>
    match iteration A offset v with
    | none => none
    | some (norm, new) =>
      if converged tol v new then some (norm, v, it + 1)
      else match fuel with
        | 0 => none
        | fuel + 1 => powerLoop A offset tol fuel (it + 1) new

/-- `power_method`, `/repo/python/triqs_tprf/eliashberg.py:367-384`; `none` is the exception "Did not converge.". -/
def powerMethod (A : (ι → ℂ) → ι → ℂ) (offset tol : ℝ) (maxIt : ℕ) (init : ι → ℂ) :
    Option (ℝ × (ι → ℂ) × ℕ) :=
  match iteration A offset init with
  | none => none
  | some (_, v) => powerLoop A offset tol (maxIt - 1) 0 v

open scoped Classical in
/-- `power_method_LR`, `/repo/python/triqs_tprf/eliashberg.py:338-398`; the result also contains the number of passes
through the loop. -/
def powerMethodLR (A : (ι → ℂ) → ι → ℂ) (tol : ℝ) (maxIt : ℕ) (init : ι → ℂ) :
    Option (ℝ × (ι → ℂ) × ℕ) :=
  match powerMethod A 0 tol maxIt init with
  | none => none
  | some (norm, v, it) =>
    match iteration A 0 v with
    | none => none
    | some (_, test) =>
      if ∑ i, ‖v i - test i‖ > ∑ i, ‖v i + test i‖ then
        match powerMethod A (-norm) tol maxIt init with
        | none => none
        | some (norm2, v2, it2) => some (norm2, v2, it + it2)
      else some (norm, v, it)

/-! ## Comparison up to a scalar -/

open scoped Classical in
/-- removal of numerical zeros, `/repo/python/triqs_tprf/eliashberg.py:425-427` -/
def nonZeros (x : List ℂ) : List ℂ := x.filter fun z => decide (‖z‖ > 1e-7)

/-- one dimensional `np.divide` with broadcasting; `none` is the `ValueError` -/
def divide (x y : List ℂ) : Option (List ℂ) :=
  if x.length = y.length then some (List.zipWith (· / ·) x y)
  else match x, y with
    | [a], y => some (y.map fun b => a / b)
    | x, [b] => some (x.map fun a => a / b)
    | _, _ => none

/-- outcome of a Python call -/
inductive Outcome where
  | ret (b : Bool)
  | indexError
  deriving DecidableEq, Repr

open scoped Classical in
/-- `allclose_by_scalar_multiplication`, `/repo/python/triqs_tprf/eliashberg.py:401-440`; `np.allclose(x, y)` compares
`|x - y| ≤ atol + 1e-5 |y|`. -/
def allcloseScalar (atol : ℝ) (x y : List ℂ) : Outcome :=
  match divide (nonZeros x) (nonZeros y) with
  | none => .ret false
  | some [] => .indexError
  | some (r :: rs) => .ret (decide (∀ z ∈ r :: rs, ‖z - r‖ ≤ atol + 1e-5 * ‖r‖))

end Verif.Eliashberg
