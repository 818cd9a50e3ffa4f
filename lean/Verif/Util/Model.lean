import Verif.Parallel.Model
import Mathlib.Data.Real.Basic
import Mathlib.Algebra.Ring.Rat
import Mathlib.Data.Nat.ModEq

/-!
# Utilities: dynamic/static splitting, frequency windows, units, boundary extension, reshaping
-/

noncomputable section

namespace Verif.Util

open Verif.Parallel

/-! ## Dynamic and static parts -/

/-- `split_into_dynamic_wk_and_constant_k`, `/repo/c++/triqs_tprf/lattice/lattice_utility.cpp:57-85`.  The
result of `fit_tail(chi_w)` (zeroth moment) is an arbitrary functional `tail0` of the frequency dependence.
Momenta are distributed over ranks; cells of the other ranks keep the initial zero. -/
def split {W K E : Type*} [DecidableEq K] [AddCommGroup E] (ranks : ℕ) (kmesh : List K) (tail0 : (W → E) → E)
    (chi : W → K → E) : (W → K → E) × (K → E) :=
  (fun w k => distributedAssign ranks kmesh (fun k w => chi w k - tail0 (fun w => chi w k)) k w,
   distributedAssign ranks kmesh (fun k => tail0 (fun w => chi w k)))

/-- `add_dynamic_and_static_template`, `/repo/c++/triqs_tprf/lattice/lattice_utility.cpp:87-103`. -/
def addDynStat {W K E : Type*} [DecidableEq K] [DecidableEq W] [AddCommGroup E] (ranks : ℕ)
    (mesh : List (W × K)) (dyn : W → K → E) (stat : K → E) : W × K → E :=
  distributedAssign ranks mesh fun p => dyn p.1 p.2 + stat p.2

/-! ## Frequency windows -/

/-- numpy slice `l[s:e]` with possibly negative or too large bounds -/
def npSlice {α : Type*} (s e : ℤ) (l : List α) : List α :=
  let n : ℤ := l.length
  let norm (x : ℤ) : ℤ := if x < 0 then max 0 (x + n) else min x n
  (l.drop (norm s).toNat).take ((norm e) - (norm s)).toNat

/-- numpy assignment `out[:] = l` to an axis of length `m`: equal length, or broadcasting of length one;
otherwise `ValueError` (`none`). -/
def npAssign {α : Type*} (m : ℕ) (l : List α) : Option (List α) :=
  if l.length = m then some l
  else match l with
    | [x] => some (List.replicate m x)
    | _ => none

/-- `fixed_fermionic_window_python_wnk`, `/repo/python/triqs_tprf/bse.py:121-155`; the list is the fermionic
axis, an element carries the remaining axes. -/
def windowWnk {α : Type*} (l : List α) (nwf : ℕ) : Option (List α) :=
  let n := l.length
  let s : ℤ := (n / 2 : ℕ) - nwf
  let e : ℤ := (n / 2 : ℕ) + nwf
  npAssign (2 * nwf) (npSlice s e l)

/-- `G2_loc_fixed_fermionic_window_python`, `/repo/python/triqs_tprf/utilities.py:130-153`: both fermionic axes
at one bosonic frequency, after the assertion.  The lengths of the two axes are equal for a well formed
input. -/
def windowG2 {α : Type*} (g : List (List α)) (nwf : ℕ) : Option (List (List α)) :=
  let n := g.length
  if n / 2 ≥ nwf then
    let s : ℤ := (n / 2 : ℕ) - nwf
    let e : ℤ := (n / 2 : ℕ) + nwf
    (((npSlice s e g).map fun row => npAssign (2 * nwf) (npSlice s e row)).mapM id).bind (npAssign (2 * nwf))
  else none

/-! ## Units -/

/-- the constant of `/repo/python/triqs_tprf/utilities.py:160` and `:171` -/
def kelvinPerEv : ℝ := 11604.5250061657

/-- `beta_to_temperature`, `/repo/python/triqs_tprf/utilities.py:156-163`. -/
def betaToTemperature (beta : ℝ) : ℝ :=
  let T := 1 / beta
  kelvinPerEv * T

/-- `temperature_to_beta`, `/repo/python/triqs_tprf/utilities.py:166-174`. -/
def temperatureToBeta (T : ℝ) : ℝ :=
  let T := T / kelvinPerEv
  1 / T

/-! ## Periodic extension -/

/-- indices of an array of the given shape in C order (`np.meshgrid(..., indexing='ij')` flattened) -/
def cIndices : List ℕ → List (List ℕ)
  | [] => [[]]
  | n :: ns => (List.range n).flatMap fun i => (cIndices ns).map (i :: ·)

/-- position of an index in C order -/
def ravel : List ℕ → List ℕ → ℕ
  | _ :: ns, i :: is => i * ns.prod + ravel ns is
  | _, _ => 0

/-- `extend_data_on_boundary`, `/repo/python/triqs_tprf/lattice_utils.py:440-468`, first return value as flat
C-ordered data: coordinates `0..n` in every direction, taken modulo `n` in the reshaped input.
(The relative coordinates of the second return value are `idx / nk`.) -/
def extendData {α : Type*} [Inhabited α] (values : List α) (nk : List ℕ) : List α :=
  (cIndices (nk.map (· + 1))).map fun idx =>
    values.getD (ravel nk (List.zipWith (fun x n => x % n) idx nk)) default

/-! ## Reshaping -/

/-- An array with C-ordered memory and four target indices of extents `A B C D`: element `(w, a, b, c, d)`. -/
def read5 {α : Type*} (B C D : ℕ) (A : ℕ) (flat : ℕ → α) (w a b c d : ℕ) : α :=
  flat ((((w * A + a) * B + b) * C + c) * D + d)

/-- an array with two target indices of extents `N M` -/
def read3 {α : Type*} (N M : ℕ) (flat : ℕ → α) (w i j : ℕ) : α := flat ((w * N + i) * M + j)

/-- `gf_tensor_to_matrix`, `/repo/python/triqs_tprf/lattice_utils.py:509-517`: `np.reshape` keeps the C-ordered
memory. Value at `(w, i, j)`. -/
def tensorToMatrix {α : Type*} (A B C D : ℕ) (flat : ℕ → α) (w i j : ℕ) : α := read3 (A * B) (C * D) flat w i j

/-- C-ordered memory of a matrix valued array -/
def flattenMat {α : Type*} (N M : ℕ) (m : ℕ → ℕ → ℕ → α) (p : ℕ) : α := m (p / M / N) (p / M % N) (p % M)

/-- C-ordered memory of a tensor valued array -/
def flattenTensor {α : Type*} (A B C D : ℕ) (t : ℕ → ℕ → ℕ → ℕ → ℕ → α) (p : ℕ) : α :=
  t (p / D / C / B / A) (p / D / C / B % A) (p / D / C % B) (p / D % C) (p % D)

/-- `gf_matrix_to_tensor`, `/repo/python/triqs_tprf/lattice_utils.py:520-526`. -/
def matrixToTensor {α : Type*} (A B C D : ℕ) (flat : ℕ → α) (w a b c d : ℕ) : α := read5 B C D A flat w a b c d

end Verif.Util
