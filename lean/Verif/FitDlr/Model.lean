import Verif.Symmetries.Model
import Mathlib.Data.Complex.Basic
import Mathlib.Data.List.Sort

/-!
# Model of the parametrisations in `python/triqs_tprf/fitdlr.py`

Coefficient arrays `g_xaa` are total functions of three natural number indices (DLR index and two
orbital indices), flattened parameter vectors carry their length. `triu`, `tril` are the numpy index
lists modelled in `Verif.Symmetries.Model`.
-/

noncomputable section

namespace Verif.FitDlr

open Verif.Symmetries (triu tril)

/-- `g_xaa` -/
abbrev Arr := ℕ → ℕ → ℕ → ℂ

/-- a one dimensional complex numpy array -/
structure Vec where
  /-- `len(v)` -/
  len : ℕ
  /-- `v[m]` -/
  get : ℕ → ℂ

/-- `g_xaa[:, idx[0], idx[1]] = vals` (pairwise different index pairs) -/
def assign (idx : List (ℕ × ℕ)) (vals : ℕ → ℕ → ℂ) (g : Arr) : Arr :=
  fun x a b => if (a, b) ∈ idx then vals x (idx.idxOf (a, b)) else g x a b

/-- `g_xaa[:, idx[0], idx[1]].flatten()` -/
def gather (nx : ℕ) (idx : List (ℕ × ℕ)) (g : Arr) : Vec where
  len := nx * idx.length
  get m := let ij := idx.getD (m % idx.length) (0, 0); g (m / idx.length) ij.1 ij.2

/-- `v.reshape((nx, n))` -/
def reshape (v : Vec) (nx n : ℕ) : Except String (ℕ → ℕ → ℂ) :=
  if v.len = nx * n then .ok fun x t => v.get (x * n + t)
  else .error "cannot reshape array"

/-- the diagonal index list `(i, i)` -/
def diag (no : ℕ) : List (ℕ × ℕ) := (List.range no).map fun i => (i, i)

/-! ### The real parameter vector handed to the minimiser (complex case) -/

/-- a one dimensional real numpy array -/
structure RVec where
  /-- `len(x)` -/
  len : ℕ
  /-- `x[m]` -/
  get : ℕ → ℝ

/-- `split_re_im` (fitdlr.py:283-287) -/
def splitReIm (xd xu : Vec) : RVec where
  len := xd.len + xu.len + xu.len
  get m := if m < xd.len then (xd.get m).re
    else if m < xd.len + xu.len then (xu.get (m - xd.len)).re
    else (xu.get (m - xd.len - xu.len)).im

/-- `merge_re_im` (fitdlr.py:277-281): the diagonal part is taken to have `nx * no` entries;
`np.split` refuses an odd length. -/
def mergeReIm (nx no : ℕ) (x : RVec) : Except String (Vec × Vec) :=
  let nd := min (nx * no) x.len
  let rest := x.len - nd
  if rest % 2 = 0 then
    let h := rest / 2
    .ok (⟨nd, fun m => x.get m⟩, ⟨h, fun m => x.get (nd + m) + Complex.I * x.get (nd + h + m)⟩)
  else .error "array split does not result in an equal division"

namespace Symmetrizer

/-- `Symmetrizer.get_x_d` (fitdlr.py:410-412) -/
def getXD (nx no : ℕ) (g : Arr) : Vec := gather nx (diag no) g

/-- `Symmetrizer.set_x_d` (fitdlr.py:414-416) -/
def setXD (nx no : ℕ) (g : Arr) (xd : Vec) : Except String Arr := do
  let r ← reshape xd nx no
  return assign (diag no) r g

/-- `Symmetrizer.get_x_u` (fitdlr.py:418-420) -/
def getXU (nx no : ℕ) (g : Arr) : Vec := gather nx (triu no) g

/-- `Symmetrizer.set_x_u` (fitdlr.py:422-425), `N = no (no - 1) / 2`. -/
def setXU (nx no : ℕ) (g : Arr) (xu : Vec) : Except String Arr := do
  let r ← reshape xu nx ((no * (no - 1)) / 2)
  let g1 := assign (triu no) r g
  return assign (tril no) (fun x t => let u := (triu no).getD t (0, 0)
    (starRingEnd ℂ) (g1 x u.1 u.2)) g1

/-- `g_from_x` (fitdlr.py:293-298) after `merge_re_im` -/
def gFromX (nx no : ℕ) (xd xu : Vec) : Except String Arr := do
  let g1 ← setXU nx no (fun _ _ _ => 0) xu
  setXD nx no g1 xd

/-- `g_from_x` of the fit (fitdlr.py:293-298) -/
def fitGFromX (nx no : ℕ) (x : RVec) : Except String Arr := do
  let (xd, xu) ← mergeReIm nx no x
  gFromX nx no xd xu

/-- `x_from_g` of the fit (fitdlr.py:300-304) -/
def fitXFromG (nx no : ℕ) (g : Arr) : RVec := splitReIm (getXD nx no g) (getXU nx no g)

end Symmetrizer

namespace BlockSymmetrizer

/-- `unique_non_zero` (fitdlr.py:431-432): sorted distinct non zero labels. -/
def uniqueNonZero (l : List ℤ) : List ℤ := (l.dedup.insertionSort (· ≤ ·)).filter (· ≠ 0)

/-- `diag_terms` (fitdlr.py:449-450) -/
def diagTerms (no : ℕ) (B : ℕ → ℕ → ℤ) : List ℤ :=
  uniqueNonZero ((List.range no).map fun i => B i i)

/-- `triu_terms` (fitdlr.py:452-453) -/
def triuTerms (no : ℕ) (B : ℕ → ℕ → ℤ) : List ℤ :=
  uniqueNonZero ((triu no).map fun u => B u.1 u.2)

/-- `diag_term_idxs` (fitdlr.py:455-461) -/
def diagTermIdxs (no : ℕ) (B : ℕ → ℕ → ℤ) : List (List (ℕ × ℕ)) :=
  (diagTerms no B).map fun t => (diag no).filter fun i => B i.1 i.2 = t

/-- `triu_term_idxs` (fitdlr.py:463-470) -/
def triuTermIdxs (no : ℕ) (B : ℕ → ℕ → ℤ) : List (List (ℕ × ℕ)) :=
  (triuTerms no B).map fun t => (triu no).filter fun u => B u.1 u.2 = t

/-- `idxs[0]` of each list (fitdlr.py:472-473) -/
def firsts (l : List (List (ℕ × ℕ))) : List (ℕ × ℕ) := l.map fun idxs => idxs.headD (0, 0)

/-- `BlockSymmetrizer.get_x_d` (fitdlr.py:482-484) -/
def getXD (nx no : ℕ) (B : ℕ → ℕ → ℤ) (g : Arr) : Vec :=
  gather nx (firsts (diagTermIdxs no B)) g

/-- `BlockSymmetrizer.get_x_u` (fitdlr.py:493-495) -/
def getXU (nx no : ℕ) (B : ℕ → ℕ → ℤ) (g : Arr) : Vec :=
  gather nx (firsts (triuTermIdxs no B)) g

/-- The loops fitdlr.py:489-490 and 498-499: in turn for each term, all its positions receive
column `term_idx` of the reshaped vector. The reshape is inside the loop. -/
def setTerms (v : Vec) (nx n : ℕ) : List (List (ℕ × ℕ)) → ℕ → Arr → Except String Arr
  | [], _, g => .ok g
  | idxs :: rest, t, g => do
    let r ← reshape v nx n
    if n ≤ t then throw "index out of bounds"
    setTerms v nx n rest (t + 1) (assign idxs (fun x _ => r x t) g)

/-- `BlockSymmetrizer.set_x_d` (fitdlr.py:486-491) -/
def setXD (nx no : ℕ) (B : ℕ → ℕ → ℤ) (g : Arr) (xd : Vec) : Except String Arr :=
  setTerms xd nx (xd.len / nx) (diagTermIdxs no B) 0 g

/-- `BlockSymmetrizer.set_x_u` (fitdlr.py:497-502), `N = no (no - 1) / 2`. -/
def setXU (nx no : ℕ) (B : ℕ → ℕ → ℤ) (g : Arr) (xu : Vec) : Except String Arr := do
  let g1 ← setTerms xu nx ((no * (no - 1)) / 2) (triuTermIdxs no B) 0 g
  return fun x a b => g1 x a b + (starRingEnd ℂ) (g1 x b a)

/-- `g_from_x` (fitdlr.py:293-298) with a block symmetriser -/
def gFromX (nx no : ℕ) (B : ℕ → ℕ → ℤ) (xd xu : Vec) : Except String Arr := do
  let g1 ← setXU nx no B (fun _ _ _ => 0) xu
  setXD nx no B g1 xd

/-- `g_from_x` of the fit (fitdlr.py:293-298) with a block symmetriser -/
def fitGFromX (nx no : ℕ) (B : ℕ → ℕ → ℤ) (x : RVec) : Except String Arr := do
  let (xd, xu) ← mergeReIm nx no x
  gFromX nx no B xd xu

/-- `x_from_g` of the fit (fitdlr.py:300-304) with a block symmetriser -/
def fitXFromG (nx no : ℕ) (B : ℕ → ℕ → ℤ) (g : Arr) : RVec :=
  splitReIm (getXD nx no B g) (getXU nx no B g)

end BlockSymmetrizer

end Verif.FitDlr
