import Mathlib.Analysis.Complex.Norm
import Mathlib.Data.List.Zip

/-!
# Model of `python/triqs_tprf/symmetries.py`

Green's function data are total functions of four natural number indices: position on the fermionic
frequency mesh (`2 h` points), linear index on the Brillouin zone mesh with the given dimensions,
and two orbital indices (`norb` each). Only indices inside the shape are meaningful. A one-particle
function on a frequency and a momentum mesh is assumed (the code raises `ValueError` for bosonic
meshes and for a target rank other than two). `gf.copy()` makes the operations pure. Views into the
data are modelled as reads and writes of the array, in program order.
-/

noncomputable section

namespace Verif.Symmetries

/-- `gf.data[w, k, a, b]` -/
abbrev Data := ℕ → ℕ → ℕ → ℕ → ℂ

/-- shape of the data -/
structure Shape where
  /-- half the number of frequencies -/
  h : ℕ
  /-- `gf.mesh[1].dims` -/
  dims : List ℕ
  /-- number of orbitals -/
  norb : ℕ

/-- number of momenta -/
def Shape.nk (s : Shape) : ℕ := s.dims.prod

/-- `'even'` or `'odd'` -/
inductive Parity
  | even
  | odd
deriving DecidableEq, Repr

/-- factor under inversion -/
def Parity.sign : Parity → ℂ
  | .even => 1
  | .odd => -1

/-- `"frequency"`, `"momentum"`, `"orbital"` -/
inductive Variable
  | frequency
  | momentum
  | orbital
deriving DecidableEq, Repr

/-! ## Frequency -/

/-- `_symmetrize_frequency` (symmetries.py:166-189): `positive_half[:] = positive_half`,
`negative_half[:] = ± positive_half[::-1]`, with `negative_half = data[:h]` and
`positive_half = data[h:]`. -/
def symFrequency (s : Shape) (p : Parity) (d : Data) : Data :=
  let positive : Data := fun j => d (s.h + j)
  let avg := positive
  fun w k a b => if w < s.h then p.sign * avg (s.h - 1 - w) k a b else avg (w - s.h) k a b

/-! ## Momentum -/

/-- `np.unravel_index`, C order -/
def unravel : List ℕ → ℕ → List ℕ
  | [], _ => []
  | _ :: ns, i => (i / ns.prod) :: unravel ns (i % ns.prod)

/-- `np.ravel_multi_index`, C order -/
def ravel : List ℕ → List ℕ → ℕ
  | _ :: ns, i :: is => i * ns.prod + ravel ns is
  | _, _ => 0

/-- `_invert_momentum` (symmetries.py:193-215). -/
def invertMomentum (dims momentum : List ℕ) : List ℕ :=
  List.zipWith (fun n i => (n - i) % n) dims momentum

/-- `inv_idx` of `_split_momentum` (symmetries.py:232-240): dimensions of length one are dropped. -/
def invIdx (dims : List ℕ) (idx : ℕ) : ℕ :=
  let mesh := dims.filter (· ≠ 1)
  ravel mesh (invertMomentum mesh (unravel mesh idx))

/-- `gf.data[:, k] = v` -/
def setK (d : Data) (k : ℕ) (v : ℕ → ℕ → ℕ → ℂ) : Data :=
  fun w k' a b => if k' = k then v w a b else d w k' a b

/-- One pass of the loop symmetries.py:304-318. `avg` is the negative half
(`_average_halfs`, symmetries.py:100-103), a view of `data[:, inv_idx]`. -/
def momentumStep (dims : List ℕ) (p : Parity) (d : Data) (idx : ℕ) : Data :=
  let inv := invIdx dims idx
  if idx = inv then
    if p = .odd then setK d idx fun w a b => d w idx a b * 0 else d
  else
    let d1 := setK d idx fun w a b => d w inv a b
    setK d1 inv fun w a b => p.sign * d1 w inv a b

/-- `_symmetrize_momentum` (symmetries.py:290-318). -/
def symMomentum (s : Shape) (p : Parity) (d : Data) : Data :=
  (List.range s.nk).foldl (momentumStep s.dims p) d

/-! ## Orbitals -/

/-- `np.triu_indices(n, k=1)` -/
def triu (n : ℕ) : List (ℕ × ℕ) :=
  (List.range n).flatMap fun i => ((List.range n).filter fun j => i < j).map fun j => (i, j)

/-- `np.tril_indices(n, k=-1)` -/
def tril (n : ℕ) : List (ℕ × ℕ) :=
  (List.range n).flatMap fun i => ((List.range n).filter fun j => j < i).map fun j => (i, j)

/-- `gf.data[:, :, i, j] = v` -/
def setO (d : Data) (ij : ℕ × ℕ) (v : ℕ → ℕ → ℂ) : Data :=
  fun w k a b => if a = ij.1 ∧ b = ij.2 then v w k else d w k a b

/-- One pass of the loop symmetries.py:413-422; the pair is (upper, lower) from `zip`
(symmetries.py:345-351). -/
def orbitalStep (p : Parity) (d : Data) (ul : (ℕ × ℕ) × (ℕ × ℕ)) : Data :=
  let d1 := setO d ul.1 fun w k => d w k ul.2.1 ul.2.2
  setO d1 ul.2 fun w k => p.sign * d1 w k ul.2.1 ul.2.2

/-- the diagonal loop symmetries.py:424-426 -/
def zeroDiagonal (norb : ℕ) (d : Data) : Data :=
  (List.range norb).foldl (fun d i => setO d (i, i) fun w k => d w k i i * 0) d

/-- `_symmetrize_orbital` (symmetries.py:404-426). -/
def symOrbital (s : Shape) (p : Parity) (d : Data) : Data :=
  let d1 := ((triu s.norb).zip (tril s.norb)).foldl (orbitalStep p) d
  if p = .odd then zeroDiagonal s.norb d1 else d1

/-! ## Entry points -/

/-- the dictionary `variable_symmetrize_fct` -/
def symmetrize (s : Shape) : Variable → Parity → Data → Data
  | .frequency => symFrequency s
  | .momentum => symMomentum s
  | .orbital => symOrbital s

/-- keys of `variable_symmetrize_fct` -/
def parseVariable : String → Option Variable
  | "frequency" => some .frequency
  | "momentum" => some .momentum
  | "orbital" => some .orbital
  | _ => none

/-- admissible symmetry names -/
def parseParity : String → Option Parity
  | "even" => some .even
  | "odd" => some .odd
  | _ => none

/-- `enforce_symmetry` (symmetries.py:27-71); a single string argument is the one element list. -/
def enforceSymmetry (s : Shape) (names symmetries : List String) (d : Data) :
    Except String Data :=
  if names.length ≠ symmetries.length then
    .error "Variables and symmetries must be of equal length."
  else match names.mapM parseVariable with
    | none => .error "No symmetrize function for this variable exists."
    | some vs => match symmetries.mapM parseParity with
      | none => .error "Symmetry can only be 'even' or 'odd'."
      | some ps => .ok ((vs.zip ps).foldl (fun d vp => symmetrize s vp.1 vp.2 d) d)

/-! ## Checks -/

/-- `np.allclose(x, y, atol)` on single numbers: `|x - y| ≤ atol + 1e-5 |y|` -/
def close (atol : ℝ) (x y : ℂ) : Prop := ‖x - y‖ ≤ atol + 1 / 100000 * ‖y‖

/-- `_overall_sign` (symmetries.py:105-115) -/
def overallSign (signs : List ℤ) : Option ℤ :=
  match signs.dedup with
  | [x] => some x
  | _ => none

open Classical in
/-- `_check_frequency_symmetry` (symmetries.py:141-164) -/
def checkFrequency (s : Shape) (atol : ℝ) (d : Data) : Option ℤ :=
  let negative : Data := fun w => d (s.h - 1 - w)           -- negative_half[::-1]
  let positive : Data := fun w => d (s.h + w)
  let all (f : Data → Data → ℕ → ℕ → ℕ → ℕ → Prop) :=
    ∀ w < s.h, ∀ k < s.nk, ∀ a < s.norb, ∀ b < s.norb, f negative positive w k a b
  if all fun x y w k a b => close atol (x w k a b) (y w k a b) then some 1
  else if all fun x y w k a b => close atol (x w k a b) (-1 * y w k a b) then some (-1)
  else none

open Classical in
/-- Loop of `_check_momentum_symmetry` (symmetries.py:267-288) over the remaining indices; the
result is `none` for the early `return None`. -/
def momentumSigns (s : Shape) (atol : ℝ) (d : Data) : List ℕ → Option (List ℤ)
  | [] => some []
  | idx :: rest =>
    let inv := invIdx s.dims idx
    let all (f : ℂ → ℂ → Prop) :=
      ∀ w < 2 * s.h, ∀ a < s.norb, ∀ b < s.norb, f (d w idx a b) (d w inv a b)
    if (all fun x _ => close atol x 0) ∧ all fun _ y => close atol y 0 then
      momentumSigns s atol d rest
    else if idx = inv then
      if ¬ all fun x _ => close (1 / 100000000) 0 x then
        (momentumSigns s atol d rest).map (1 :: ·)
      else momentumSigns s atol d rest
    else if all fun x y => close atol x y then (momentumSigns s atol d rest).map (1 :: ·)
    else if all fun x y => close atol (-1 * x) y then (momentumSigns s atol d rest).map (-1 :: ·)
    else none

/-- `_check_momentum_symmetry` (symmetries.py:250-288) -/
def checkMomentum (s : Shape) (atol : ℝ) (d : Data) : Option ℤ :=
  (momentumSigns s atol d (List.range s.nk)).bind overallSign

open Classical in
/-- Loop over the triangles in `_check_orbital_symmetry` (symmetries.py:388-395). -/
def triangleSigns (s : Shape) (atol : ℝ) (d : Data) :
    List ((ℕ × ℕ) × (ℕ × ℕ)) → Option (List ℤ)
  | [] => some []
  | ul :: rest =>
    let all (f : ℂ → ℂ → Prop) :=
      ∀ w < 2 * s.h, ∀ k < s.nk, f (d w k ul.1.1 ul.1.2) (d w k ul.2.1 ul.2.2)
    if all fun x y => close atol x y then (triangleSigns s atol d rest).map (1 :: ·)
    else if all fun x y => close atol x (-1 * y) then (triangleSigns s atol d rest).map (-1 :: ·)
    else none

open Classical in
/-- Loop over the diagonal in `_check_orbital_symmetry` (symmetries.py:397-399). -/
def diagonalSigns (s : Shape) (atol : ℝ) (d : Data) : List ℤ :=
  (List.range s.norb).flatMap fun i =>
    if ∀ w < 2 * s.h, ∀ k < s.nk, close atol (d w k i i) 0 then [] else [1]

/-- `_check_orbital_symmetry` (symmetries.py:371-401) -/
def checkOrbital (s : Shape) (atol : ℝ) (d : Data) : Option ℤ :=
  (triangleSigns s atol d ((triu s.norb).zip (tril s.norb))).bind fun signs =>
    overallSign (signs ++ diagonalSigns s atol d)

end Verif.Symmetries
