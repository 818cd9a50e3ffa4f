import Mathlib.Data.Complex.Basic

/-!
# Wannier90 hopping parser

Model of `parse_hopping_from_wannier90_hr_dat`, `/repo/python/triqs_tprf/wannier90.py:38-116`.

Simplification: a line is already tokenised; a line of integers (degeneracies) and a hopping line
`R1 R2 R3 n m re im` are told apart by their constructor, a line of the wrong kind is a parse error.
-/

noncomputable section

namespace Verif.Wannier

/-- lattice vector in multiples of the unit vectors -/
abbrev R3 := ℤ × ℤ × ℤ

/-- a hopping row -/
structure Row where
  /-- lattice vector -/
  r : R3
  /-- first orbital, counted from 1 -/
  n : ℤ
  /-- second orbital, counted from 1 -/
  m : ℤ
  /-- real part -/
  re : ℝ
  /-- imaginary part -/
  im : ℝ

/-- a tokenised line -/
inductive Line where
  /-- degeneracy line -/
  | ints (l : List ℤ)
  /-- hopping line -/
  | hop (row : Row)

/-- `np.loadtxt(..., dtype=np.int64, ndmin=1)` of one line, `wannier90.py:75` -/
def Line.toInts : Line → Option (List ℤ)
  | .ints l => some l
  | .hop _ => none

/-- a row of `np.loadtxt` for the hopping part, `wannier90.py:79-80` -/
def Line.toRow : Line → Option Row
  | .ints _ => none
  | .hop r => some r

/-- Python indexing of an axis of length `nw`; out of range is an `IndexError` -/
def pyIndex (nw : ℕ) (i : ℤ) : Option ℕ :=
  if 0 ≤ i ∧ i < nw then some i.toNat
  else if -(nw : ℤ) ≤ i ∧ i < 0 then some (i + nw).toNat
  else none

/-- hopping matrix -/
abbrev Mat := ℕ → ℕ → ℂ

/-- the dictionary `hopp_dict` with its keys in insertion order (the order of `r_dict`) -/
abbrev Dict := List (R3 × Mat)

/-- `hopp_dict[r][n, m] = t`, creating a zero matrix if absent, `wannier90.py:103-108` -/
def Dict.write : Dict → R3 → ℕ → ℕ → ℂ → Dict
  | [], r, n, m, t => [(r, fun i j => if i = n ∧ j = m then t else 0)]
  | (r', M) :: rest, r, n, m, t =>
    if r' = r then (r', fun i j => if i = n ∧ j = m then t else M i j) :: rest
    else (r', M) :: Dict.write rest r n m t

/-- `hopp_dict[r]` -/
def Dict.get : Dict → R3 → Option Mat
  | [], _ => none
  | (r', M) :: rest, r => if r' = r then some M else Dict.get rest r

/-- body of the loop over rows, `wannier90.py:95-108` -/
def step (nw : ℕ) (d : Option Dict) (row : Row) : Option Dict :=
  d.bind fun d => (pyIndex nw (row.n - 1)).bind fun n => (pyIndex nw (row.m - 1)).bind fun m =>
    some (d.write row.r n m (row.re + Complex.I * row.im))

/-- `zip(r_dict.keys(), deg)` and division, `wannier90.py:112-113` -/
def divide : Dict → List ℤ → Dict
  | (r, M) :: rest, w :: ws => (r, fun i j => M i j / w) :: divide rest ws
  | d, _ => d

/-- The whole routine after the three header lines. `np.loadtxt` drops the first axis of a single row, so the
shape assertion (line 82) fails for one row; it also fails for no row. -/
def parse (nw nrpts : ℕ) (lines : List Line) : Option Dict :=
  let nlines := (nrpts + 14) / 15
  ((lines.take nlines).mapM Line.toInts).bind fun degs =>
    let deg := degs.flatten
    if deg.length ≠ nrpts then none
    else ((lines.drop nlines).mapM Line.toRow).bind fun rows =>
      if rows.length ≤ 1 ∨ rows.length ≠ nw ^ 2 * nrpts then none
      else (rows.foldl (step nw) (some [])).map fun d => divide d deg

end Verif.Wannier
