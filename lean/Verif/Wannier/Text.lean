import Mathlib.Data.Real.Basic
import Mathlib.LinearAlgebra.Matrix.NonsingularInverse
import Mathlib.Data.List.Infix

/-!
# Wannier90 text parsers

Model of `/repo/python/triqs_tprf/wannier90.py:117-300`. A file is the list of its lines as returned by `readlines`, a line
is a list of characters. `np.loadtxt` and `np.genfromtxt` are modelled for numbers in fixed point notation (sign, digits,
point, digits) with an optional exponent; numbers are real numbers; exceptions are values.
-/

noncomputable section

namespace Verif.Wannier.Text

/-- a line of text -/
abbrev Line := List Char

/-- python `sub in line` -/
def has (sub : String) (line : Line) : Bool := decide (sub.toList <:+: line)

/-! ## numpy text readers -/

/-- current word and completed words, read from the right -/
def wordsAux : List Char → List Char × List (List Char)
  | [] => ([], [])
  | c :: cs =>
    let (w, r) := wordsAux cs
    if c.isWhitespace then ([], if w = [] then r else w :: r) else (c :: w, r)

/-- `line.split()` -/
def words (l : Line) : List (List Char) :=
  let (w, r) := wordsAux l
  if w = [] then r else w :: r

/-- tokens of a line in `np.loadtxt` and `np.genfromtxt`: text after `#` is dropped -/
def tokens (l : Line) : List (List Char) := words (l.takeWhile (· ≠ '#'))

/-- value of a digit -/
def digitVal (c : Char) : Option ℕ := if '0' ≤ c ∧ c ≤ '9' then some (c.toNat - 48) else none

/-- value of a list of digits -/
def natOf (ds : List ℕ) : ℕ := ds.foldl (fun a d => 10 * a + d) 0

/-- `float` of an unsigned number in fixed point notation -/
def parseUnsigned (s : List Char) : Option ℝ :=
  let i := s.takeWhile (· ≠ '.')
  match s.dropWhile (· ≠ '.') with
  | [] => if i = [] then none else (i.mapM digitVal).map fun ds => (natOf ds : ℝ)
  | _ :: f =>
    if i = [] ∧ f = [] then none
    else match i.mapM digitVal, f.mapM digitVal with
      | some a, some b => some ((natOf a : ℝ) + natOf b / 10 ^ b.length)
      | _, _ => none

/-- `float` of a number in fixed point notation -/
def parseDec : List Char → Option ℝ
  | '-' :: s => (parseUnsigned s).map fun x => -x
  | '+' :: s => parseUnsigned s
  | s => parseUnsigned s

/-- exponent of a number: sign and digits -/
def parseExp : List Char → Option ℤ
  | '-' :: s => if s = [] then none else (s.mapM digitVal).map fun ds => -(natOf ds : ℤ)
  | '+' :: s => if s = [] then none else (s.mapM digitVal).map fun ds => (natOf ds : ℤ)
  | s => if s = [] then none else (s.mapM digitVal).map fun ds => (natOf ds : ℤ)

/-- `float` of a number with or without exponent -/
def parseFloat (s : List Char) : Option ℝ :=
  match s.dropWhile (fun c => c ≠ 'E' ∧ c ≠ 'e') with
  | [] => parseDec s
  | _ :: ex => match parseDec (s.takeWhile fun c => c ≠ 'E' ∧ c ≠ 'e'), parseExp ex with
    | some x, some n => some (x * 10 ^ n)
    | _, _ => none

/-- one row of numbers -/
def rowOf (cols : List ℕ) (toks : List (List Char)) : Option (List ℝ) :=
  cols.mapM fun c => match toks[c]? with
    | some t => parseFloat t
    | none => none

/-- rows of `np.loadtxt(..., usecols=cols)`: empty lines are skipped, `none` is a `ValueError` -/
def loadRows (cols : List ℕ) (lines : List Line) : Option (List (List ℝ)) :=
  ((lines.map tokens).filter fun t => t ≠ []).mapM (rowOf cols)

/-! ## Parsers -/

/-- `Units.Bohr`, `/repo/python/triqs_tprf/wannier90.py:31-33` -/
def bohr : ℝ := 0.5291772105638411

/-- the lines after the header and the conversion into tuples,
`/repo/python/triqs_tprf/wannier90.py:151-162`: a single row is read as a one dimensional array, whose elements are no
sequences (`TypeError`), no row as an empty array. -/
def vectorsAfter (unit : ℝ) (lines : List Line) : Except String (List (List ℝ)) :=
  match loadRows [1, 2, 3] (lines.take 3) with
  | none => .error "ValueError"
  | some [_] => .error "TypeError"
  | some rows => .ok (rows.map fun r => r.map fun x => x * unit)

/-- `parse_lattice_vectors_from_wannier90_wout`, `/repo/python/triqs_tprf/wannier90.py:118-164` -/
def latticeVectors : List Line → Except String (List (List ℝ))
  | [] => .error "UnboundLocalError"
  | [l] =>
    if has "Lattice Vectors" l then
      if has "(Ang)" l then vectorsAfter 1 []
      else if has "(Bohr)" l then vectorsAfter bohr []
      else .error "NotImplementedError"
    else .error "IOError"
  | l :: rest =>
    if has "Lattice Vectors" l then
      if has "(Ang)" l then vectorsAfter 1 rest
      else if has "(Bohr)" l then vectorsAfter bohr rest
      else .error "NotImplementedError"
    else latticeVectors rest

/-- `parse_reciprocal_lattice_vectors_from_wannier90_wout`, `/repo/python/triqs_tprf/wannier90.py:167-204`: without a
header the loop ends at the last line -/
def reciprocalVectors : List Line → Except String (List (List ℝ))
  | [] => .error "UnboundLocalError"
  | [_] => vectorsAfter 1 []
  | l :: rest =>
    if has "Reciprocal-Space Vectors (Ang^-1)" l then vectorsAfter 1 rest else reciprocalVectors rest

/-- the lines between the headers, `/repo/python/triqs_tprf/wannier90.py:230-237`; `start`: the first header was met,
followed by the lines `acc`. `none`: `idxend` is not defined. -/
def centreLines : Bool → List Line → List Line → Option (List Line)
  | _, _, [] => none
  | false, _, l :: rest =>
    if has "Final State" l then
      -- the line is also compared with the second header; `lines[idx+1:idx]` is empty
      if has "Sum of centres" l then some [] else centreLines true [] rest
    else centreLines false [] rest
  | true, acc, l :: rest => if has "Sum of centres" l then some acc else centreLines true (acc ++ [l]) rest

/-- tokens of a line of `np.genfromtxt(..., dtype="|U8")`: eight characters of each -/
def tokens8 (l : Line) : List (List Char) := (tokens l).map fun t => t.take 8

/-- the array of cartesian positions, `/repo/python/triqs_tprf/wannier90.py:230-242`; `npFloat`: the installed numpy has
`np.float` -/
def centres (npFloat : Bool) (lines : List Line) : Except String (List (Fin 3 → ℝ)) :=
  open Classical in
  match centreLines false [] lines with
  | none => .error "UnboundLocalError"
  | some ls =>
    match (ls.map tokens8).filter fun t => t ≠ [] with
    | [] => .error "IndexError"
    | [_] => .error "IndexError"
    | r0 :: r1 :: rest =>
      if ∃ r ∈ r1 :: rest, r.length ≠ r0.length then .error "ValueError"
      else if r0.length < 9 then .error "IndexError"
      else if npFloat = false then .error "AttributeError"
      else match (r0 :: r1 :: rest).mapM (rowOf [6, 7, 8]) with
        | none => .error "ValueError"
        | some xs => .ok (xs.map fun x a => x.getD a 0)

/-- `parse_orbital_positions_from_wannier90_wout`, `/repo/python/triqs_tprf/wannier90.py:207-251`. `isArray`: the argument
`units` is a numpy array (a list of tuples has no attribute `T`). -/
def orbitalPositions (npFloat isArray : Bool) (units : Matrix (Fin 3) (Fin 3) ℝ) (lines : List Line) :
    Except String (List (Fin 3 → ℝ)) :=
  open Classical in
  match centres npFloat lines with
  | .error e => .error e
  | .ok xs =>
    if isArray = false then .error "AttributeError"
    else if units.det = 0 then .error "LinAlgError"
    else .ok (xs.map fun x => (units.transpose)⁻¹.mulVec x)

/-- number of empty lines, `/repo/python/triqs_tprf/wannier90.py:277-280` -/
def emptyLines (lines : List Line) : ℕ :=
  (lines.filter fun l => ((l.dropWhile (· = ' ')).reverse.dropWhile (· = ' ')).reverse = ['\n']).length

/-- `parse_band_structure_from_wannier90_band_dat`, `/repo/python/triqs_tprf/wannier90.py:254-290`: number of bands and of
points, and the two arrays; energies first. -/
def bandStructure (lines : List Line) : Except String ((ℕ × ℕ) × (ℕ → ℕ → ℝ) × (ℕ → ℕ → ℝ)) :=
  let numWann := emptyLines lines
  let toks := (lines.map tokens).filter fun t => t ≠ []
  if ∃ t ∈ toks, t.length ≠ 2 then .error "ValueError"
  else match toks.mapM (rowOf [0, 1]) with
    | none => .error "ValueError"
    | some rows =>
      if numWann = 0 then .error "ZeroDivisionError"
      -- with a single row the array is one dimensional and has too few elements
      else if rows.length = 1 then .error "ValueError"
      else
        let m := rows.length / numWann
        if numWann * m ≠ rows.length then .error "ValueError"
        else .ok ((numWann, m), (fun b j => (rows.getD (b * m + j) []).getD 1 0),
          fun b j => (rows.getD (b * m + j) []).getD 0 0)

end Verif.Wannier.Text
