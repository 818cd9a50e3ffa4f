import Mathlib.Data.Prod.Lex
import Mathlib.Data.List.Basic

/-!
# `python/triqs_tprf/numpy_compat.py`

Version strings are lists of characters. `distutils.version.StrictVersion` (Python standard library up to 3.11) is modelled after its
regular expression `^(\d+) \. (\d+) (\. (\d+))? ([ab](\d+))?$`; a version string ending in a newline, which `$` also accepts, is left out.

Arrays are functions of the list of their leading indices, with matrices (or lists of eigenvalues) as values. The element type of
`np.empty_like` is not modelled.
-/

namespace Verif.NumpyCompat

/-- `StrictVersion.version`, `StrictVersion.prerelease` -/
structure Version where
  /-- major, minor, patch -/
  version : ℕ × ℕ × ℕ
  /-- `a` or `b`, number -/
  prerelease : Option (Char × ℕ)
deriving DecidableEq

/-- `int` of a string of digits -/
def number (ds : List Char) : ℕ := ds.foldl (fun n c => 10 * n + (c.toNat - 48)) 0

/-- the end of the regular expression, `([ab](\d+))?$` -/
def parseEnd : List Char → Option (Option (Char × ℕ))
  | [] => some none
  | c :: r => if (c = 'a' ∨ c = 'b') ∧ r ≠ [] ∧ r.all Char.isDigit then some (some (c, number r)) else none

/-- `parse` (numpy_compat.py:17): `StrictVersion(vstring)`, `none` for `ValueError: invalid version number` -/
def parse (s : List Char) : Option Version :=
  let major := s.takeWhile Char.isDigit
  match s.dropWhile Char.isDigit with
  | '.' :: r =>
    let minor := r.takeWhile Char.isDigit
    if major = [] ∨ minor = [] then none
    else
      match r.dropWhile Char.isDigit with
      | '.' :: t =>
        let patch := t.takeWhile Char.isDigit
        if patch = [] then none
        else (parseEnd (t.dropWhile Char.isDigit)).map fun p => ⟨(number major, number minor, number patch), p⟩
      | t => (parseEnd t).map fun p => ⟨(number major, number minor, 0), p⟩
  | _ => none

/-- `x > y` for versions (`StrictVersion._cmp`) -/
def Version.gt (x y : Version) : Bool :=
  if x.version ≠ y.version then decide (toLex (y.version.1, toLex y.version.2) < toLex (x.version.1, toLex x.version.2))
  else
    match x.prerelease, y.prerelease with
    | none, none => false
    | some _, none => false
    | none, some _ => true
    | some p, some q => decide (toLex (q.1.toNat, q.2) < toLex (p.1.toNat, p.2))

/-- `is_numpy_newer_than` (numpy_compat.py:19-20), for the string `np.__version__` -/
def isNumpyNewerThan (npVersion version : List Char) : Except String Bool :=
  match parse npVersion, parse version with
  | some x, some y => .ok (x.gt y)
  | _, _ => .error "ValueError: invalid version number"

/-- `itertools.product(*ranges)` with `ranges = [range(N) for N in shape]` (numpy_compat.py:28-29, 62-63) -/
def product : List ℕ → List (List ℕ)
  | [] => [[]]
  | n :: ns => (List.range n).flatMap fun i => (product ns).map (i :: ·)

/-- `arr_out[idx] = func(arr[idx])` in a loop (numpy_compat.py:29-30) -/
def fillLoop {A B : Type} (func : A → B) (arr : List ℕ → A) (out : List ℕ → B) (idxs : List (List ℕ)) : List ℕ → B :=
  idxs.foldl (fun o idx => Function.update o idx (func (arr idx))) out

/-- `np_linalg_func` (numpy_compat.py:22-34) for a function of matrices that numpy applies to the last two indices; `empty` is the
content of the memory given by `np.empty_like`. `np_inv` (numpy_compat.py:36-37) is this function with `np.linalg.inv`. -/
def npLinalgFunc {A : Type} (npVersion : List Char) (func : A → A) (empty : List ℕ → A) (shape : List ℕ) (arr : List ℕ → A)
    (version : List Char) : Except String (List ℕ → A) :=
  match isNumpyNewerThan npVersion version with
  | .error e => .error e
  | .ok true => .ok fun idx => func (arr idx)
  | .ok false => .ok (fillLoop func arr empty (product shape))

/-- `np_eigh` (numpy_compat.py:39-54), for an array of shape `N, M, M` -/
def npEigh {A B : Type} (npVersion : List Char) (eigh : A → B) (empty : List ℕ → B) (N : ℕ) (arr : List ℕ → A) :
    Except String (List ℕ → B) :=
  match isNumpyNewerThan npVersion "1.8.0".toList with
  | .error e => .error e
  | .ok true => .ok fun idx => eigh (arr idx)
  | .ok false => .ok (fillLoop eigh arr empty ((List.range N).map fun i => [i]))

/-- an array of numbers with its shape -/
structure Arr (E : Type) where
  /-- `shape` -/
  shape : List ℕ
  /-- elements by their indices -/
  val : List ℕ → E

/-- `np.squeeze` of a shape -/
def squeeze (shape : List ℕ) : List ℕ := shape.filter (· ≠ 1)

/-- `arr_out[(i,)] = v` for a vector `v` of length `m`: a row of a two dimensional array of the same length, or one element of a one
dimensional array if `m = 1` -/
def assignRow {E : Type} (out : Arr E) (i : ℕ) (m : ℕ) (v : ℕ → E) : Except String (Arr E) :=
  match out.shape with
  | [] => .error "IndexError: too many indices for array"
  | [n] =>
    if n ≤ i then .error "IndexError: index is out of bounds"
    else if m = 1 then .ok { out with val := Function.update out.val [i] (v 0) }
    else .error "ValueError: setting an array element with a sequence."
  | n :: l :: _ =>
    if n ≤ i then .error "IndexError: index is out of bounds"
    else if l = m then .ok { out with val := fun idx =>
      match idx with
      | [i', j] => if i' = i then v j else out.val idx
      | _ => out.val idx }
    else .error "ValueError: could not broadcast input array"

/-- `np_eigvalsh` (numpy_compat.py:56-69) for an array of shape `N, M, M`: in the new branch an array of shape `N, M`, otherwise rows
assigned to `np.empty_like(np.squeeze(arr[...,0]))` -/
def npEigvalsh {A E : Type} (npVersion : List Char) (eigvalsh : A → ℕ → E) (empty : List ℕ → E) (N M : ℕ) (arr : ℕ → A) :
    Except String (Arr E) :=
  match isNumpyNewerThan npVersion "1.8.0".toList with
  | .error e => .error e
  | .ok true => .ok ⟨[N, M], fun idx => match idx with | [i, j] => eigvalsh (arr i) j | _ => empty idx⟩
  | .ok false => (List.range N).foldlM (fun out i => assignRow out i M (eigvalsh (arr i))) ⟨squeeze [N, M], empty⟩

end Verif.NumpyCompat
