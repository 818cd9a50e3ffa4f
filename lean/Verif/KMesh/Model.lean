import Mathlib.LinearAlgebra.Matrix.NonsingularInverse
import Mathlib.Algebra.Order.Round
import Mathlib.Algebra.Order.Archimedean.Real.Basic
import Mathlib.Data.Complex.Basic

/-!
# Momentum bookkeeping of `lattice_utils.py`

Model of `/repo/python/triqs_tprf/lattice_utils.py:334-468`. Arrays are functions on their row major position together
with a size; floating point numbers are real numbers.
-/

noncomputable section

namespace Verif.KMesh

open Matrix

/-- position of a multi-index in an array of shape `nk` (C order) -/
def ravel (nk i : Fin 3 → ℕ) : ℕ := (i 0 * nk 1 + i 1) * nk 2 + i 2

/-- multi-index of a position (C order) -/
def unravel (nk : Fin 3 → ℕ) (p : ℕ) : Fin 3 → ℕ :=
  ![p / nk 2 / nk 1, p / nk 2 % nk 1, p % nk 2]

/-- number of elements -/
def prod3 (nk : Fin 3 → ℕ) : ℕ := nk 0 * nk 1 * nk 2

/-- momentum with given coordinates along the reciprocal basis (rows of `units`): the value of a mesh point
(TRIQS `brzone` mesh) -/
def absolute (units : Matrix (Fin 3) (Fin 3) ℝ) (x : Fin 3 → ℝ) : Fin 3 → ℝ := fun j => ∑ i, x i * units i j

/-- values of the mesh points in storage order (TRIQS `brzone` mesh) -/
def meshValues (units : Matrix (Fin 3) (Fin 3) ℝ) (nk : Fin 3 → ℕ) (p : ℕ) : Fin 3 → ℝ :=
  absolute units fun a => (unravel nk p a : ℝ) / nk a

/-- `get_relative_k_from_absolute`, `/repo/python/triqs_tprf/lattice_utils.py:335-337`, at one vector; `none`: the
inverse raises. -/
def relative (units : Matrix (Fin 3) (Fin 3) ℝ) (k : Fin 3 → ℝ) : Option (Fin 3 → ℝ) :=
  open Classical in if units.det = 0 then none else some ((units⁻¹)ᵀ.mulVec k)

/-- `np.round`: nearest integer, halves to the even neighbour -/
def npRound (x : ℝ) : ℤ :=
  open Classical in
  if Int.fract x < 1 / 2 then ⌊x⌋ else if 1 / 2 < Int.fract x then ⌊x⌋ + 1 else if Even ⌊x⌋ then ⌊x⌋ else ⌊x⌋ + 1

/-- `get_kidx_from_k_vec_relative`, `/repo/python/triqs_tprf/lattice_utils.py:340-342`, at one vector -/
def kIndex (k : Fin 3 → ℝ) (nk : Fin 3 → ℕ) : Fin 3 → ℤ := fun a => npRound (k a * nk a)

/-- `get_k_components_from_k_vec`, `/repo/python/triqs_tprf/lattice_utils.py:345-364`: the coordinate `axis` along the
line of points whose other indices vanish. `size` is the number of vectors; `none`: the `reshape` raises. -/
def kComponents (size : ℕ) (k : ℕ → Fin 3 → ℝ) (nk : Fin 3 → ℕ) : Option (Fin 3 → ℕ → ℝ) :=
  if size = prod3 nk then some fun axis j => k (ravel nk (Function.update 0 axis j)) axis else none

/-- result of `extend_data_on_boundary` -/
structure Extended (α : Type) where
  /-- values in storage order -/
  values : ℕ → α
  /-- relative momenta in storage order -/
  kRel : ℕ → Fin 3 → ℝ
  /-- coordinates along the axes -/
  comps : Fin 3 → ℕ → ℝ

/-- `extend_data_on_boundary`, `/repo/python/triqs_tprf/lattice_utils.py:440-468`. `npFloat`: the installed numpy still
has the name `np.float` of line 465 (removed in numpy 1.24); `none`: an exception. -/
def extendData {α : Type} (npFloat : Bool) (size : ℕ) (values : ℕ → α) (nk : Fin 3 → ℕ) : Option (Extended α) :=
  if size ≠ prod3 nk then none
  else
    let ext : Fin 3 → ℕ := fun a => nk a + 1
    let valuesExt : ℕ → α := fun p => values (ravel nk fun a => unravel ext p a % nk a)
    if npFloat = false then none
    else
      let kExt : ℕ → Fin 3 → ℝ := fun p a => (unravel ext p a : ℝ) / nk a
      match kComponents (prod3 ext) kExt ext with
      | none => none
      | some c => some ⟨valuesExt, kExt, c⟩

/-- interval of a grid of `m` points that `RegularGridInterpolator` uses for `x`: the last one that starts at or below
`x`, except that the last point starts no interval -/
def cell (grid : ℕ → ℝ) (m : ℕ) (x : ℝ) : ℕ :=
  open Classical in ((Finset.range (m - 1)).filter fun i => grid i ≤ x).sup id

/-- position inside the interval -/
def frac (grid : ℕ → ℝ) (m : ℕ) (x : ℝ) : ℝ :=
  (x - grid (cell grid m x)) / (grid (cell grid m x + 1) - grid (cell grid m x))

/-- scipy `RegularGridInterpolator`, method linear, with `bounds_error=False` (`none` is the fill value `nan`):
weighted corners of the cell -/
def regularGrid (grid : Fin 3 → ℕ → ℝ) (m : Fin 3 → ℕ) (values : ℕ → ℂ) (x : Fin 3 → ℝ) : Option ℂ :=
  open Classical in
  if ∀ a, grid a 0 ≤ x a ∧ x a ≤ grid a (m a - 1) then
    let w : Fin 3 → Fin 2 → ℂ := fun a c =>
      if c = 0 then 1 - (frac (grid a) (m a) (x a) : ℂ) else (frac (grid a) (m a) (x a) : ℂ)
    let i : Fin 3 → Fin 2 → ℕ := fun a c => cell (grid a) (m a) (x a) + (c : ℕ)
    some (∑ c0, ∑ c1, ∑ c2, w 0 c0 * w 1 c1 * w 2 c2 * values (ravel m ![i 0 c0, i 1 c1, i 2 c2]))
  else none

/-- `get_rel_k_chi_interpolator` with `interpolator='regular'`,
`/repo/python/triqs_tprf/lattice_utils.py:405-437`; the outer `none` is an exception. -/
def relInterpolator (npFloat extend : Bool) (units : Matrix (Fin 3) (Fin 3) ℝ) (nk : Fin 3 → ℕ) (size : ℕ)
    (values : ℕ → ℂ) : Option ((Fin 3 → ℝ) → Option ℂ) :=
  if units.det = 0 then none
  else
    let kRel : ℕ → Fin 3 → ℝ := fun p => (units⁻¹)ᵀ.mulVec (meshValues units nk p)
    match kComponents (prod3 nk) kRel nk with
    | none => none
    | some c =>
      if extend then
        match extendData npFloat size values nk with
        | none => none
        | some e => some (regularGrid e.comps (fun a => nk a + 1) e.values)
      else if size = prod3 nk then some (regularGrid c nk values) else none

/-- data of `get_abs_k_chi_interpolator`, `/repo/python/triqs_tprf/lattice_utils.py:382-397`: points and values handed to
the scattered data interpolator, in order; `ext` is `extend_bz`. -/
def absData {α : Type} (units : Matrix (Fin 3) (Fin 3) ℝ) (nk : Fin 3 → ℕ) (values : ℕ → α) (ext : List ℤ) :
    List ((Fin 3 → ℝ) × α) :=
  ext.flatMap fun s0 => ext.flatMap fun s1 => ext.flatMap fun s2 =>
    (List.range (prod3 nk)).map fun p =>
      (fun j => meshValues units nk p j + (unitsᵀ.mulVec fun a => ((![s0, s1, s2] : Fin 3 → ℤ) a : ℝ)) j, values p)

end Verif.KMesh
