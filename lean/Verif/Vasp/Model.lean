import Verif.KMesh.Model
import Mathlib.Data.List.Sort
import Mathlib.Order.PiLex
import Mathlib.Data.Real.Basic

/-!
# Parser of momentum dependent cRPA interactions

Model of `/repo/python/triqs_tprf/vasp_crpa_parsers.py`. A file is the list of its data rows, already tokenised
(`np.genfromtxt` after the header); floating point numbers are real numbers; exceptions are values. Orbital numbers are
natural numbers (a negative number in the file or in `orbsub` is not modelled).
-/

noncomputable section

namespace Verif.Vasp

open Verif.KMesh

/-- momentum in relative coordinates -/
abbrev Q3 := Fin 3 → ℝ

/-- interaction tensor -/
abbrev U4 := ℕ → ℕ → ℕ → ℕ → ℂ

/-- one row of a file: momentum, four orbital numbers counted from one, value,
`/repo/python/triqs_tprf/vasp_crpa_parsers.py:26-28` -/
structure Row where
  /-- momentum -/
  q : Q3
  /-- orbital numbers -/
  idx : Fin 4 → ℕ
  /-- value -/
  val : ℂ

/-- rows taken from a file, `/repo/python/triqs_tprf/vasp_crpa_parsers.py:17-24`: `np.genfromtxt` returns a one dimensional
array for a single row (and for none), and only two dimensional arrays are appended. -/
def loadFile (rows : List Row) : List Row := if 2 ≤ rows.length then rows else []

/-- `idxs.max()`, `/repo/python/triqs_tprf/vasp_crpa_parsers.py:30` -/
def norbOf (rows : List Row) : ℕ :=
  (rows.flatMap fun r => [r.idx 0, r.idx 1, r.idx 2, r.idx 3]).foldr max 0

/-- array index `i - 1` of an axis of length `norb`, counted from the end if negative -/
def pyPred (norb i : ℕ) : ℕ := if i = 0 then norb - 1 else i - 1

/-- the loop filling `u`, `/repo/python/triqs_tprf/vasp_crpa_parsers.py:48-53` -/
def fillU (norb : ℕ) (block : List Row) : (Fin 4 → ℕ) → ℂ :=
  block.foldl (fun u r => Function.update u (fun i => pyPred norb (r.idx i)) r.val) 0

/-- one pass of the loop over momenta, `/repo/python/triqs_tprf/vasp_crpa_parsers.py:47-64`; `orb` is the list of orbitals
kept. -/
def readBlock (norb : ℕ) (orb : List ℕ) (block : List Row) : Except String (Q3 × U4) :=
  open Classical in
  match block with
  | [] => .error "IndexError"
  | r0 :: _ =>
    if ∀ r ∈ block, ∀ a, |r.q a - r0.q a| < 1.5 * 10 ^ (-6 : ℤ) then
      let u := fillU norb block
      if ∃ x ∈ orb, norb ≤ x then .error "IndexError"
      else .ok (r0.q, fun a b c d => u ![orb.getD b 0, orb.getD a 0, orb.getD d 0, orb.getD c 0])
    else .error "AssertionError"

/-- first entry of every momentum -/
def firstOnly : List (Q3 × U4) → List (Q3 × U4)
  | [] => []
  | x :: l => open Classical in x :: (firstOnly l).filter fun y => decide (y.1 ≠ x.1)

/-- `np.unique(Q, return_index=True, axis=0)` and `U_Q[uidx]`,
`/repo/python/triqs_tprf/vasp_crpa_parsers.py:68-69`: sorted momenta, first entry of each -/
def unique (l : List (Q3 × U4)) : List (Q3 × U4) :=
  open Classical in (firstOnly l).insertionSort fun x y => toLex x.1 ≤ toLex y.1

/-- `read_vasp_crpa_vq_to_ndarray`, `/repo/python/triqs_tprf/vasp_crpa_parsers.py:11-71`. `files` are the files in sorted
order; `npNames`: the installed numpy still has the names `np.float` and `np.complex` (removed in numpy 1.24). -/
def readVasp (npNames : Bool) (files : List (List Row)) (orbsub : List ℕ) : Except String (List (Q3 × U4)) :=
  let rows := files.flatMap loadFile
  if rows.isEmpty then .error "ValueError"
  else
    let norb := norbOf rows
    if norb = 0 then .error "ZeroDivisionError"
    else if npNames = false then .error "AttributeError"
    else
      let orb := if orbsub = [] then List.range norb else orbsub
      let nq := rows.length / norb ^ 4
      match (List.range nq).mapM fun i => readBlock norb orb ((rows.drop (i * norb ^ 4)).take (norb ^ 4)) with
      | .error e => .error e
      | .ok l => .ok (unique l)

/-- elementwise operation on two arrays with numpy broadcasting of the first axis -/
def npBin (op : U4 → U4 → U4) (l m : List U4) : Except String (List U4) :=
  if l.length = m.length then .ok (List.zipWith op l m)
  else match l, m with
    | [x], m => .ok (m.map fun y => op x y)
    | l, [y] => .ok (l.map fun x => op x y)
    | _, _ => .error "ValueError"

/-- index of the mesh point at a position, `/repo/python/triqs_tprf/vasp_crpa_parsers.py:110-113` -/
def meshIndex (kunits : Matrix (Fin 3) (Fin 3) ℝ) (nk : Fin 3 → ℕ) (p : ℕ) : Fin 3 → ℤ :=
  kIndex ((kunits⁻¹).transpose.mulVec (meshValues kunits nk p)) nk

/-- index computed for a momentum of the file, `/repo/python/triqs_tprf/vasp_crpa_parsers.py:92,99-104` -/
def fileIndex (nk : Fin 3 → ℕ) (q : Q3) : Fin 3 → ℤ := fun a =>
  let i := npRound (q a * nk a)
  if i < 0 then i + nk a else i

/-- `convert_from_ndarray_to_triqs`, `/repo/python/triqs_tprf/vasp_crpa_parsers.py:73-117`; `kunits` are the reciprocal basis
vectors, the result is a function of the position in the mesh. -/
def convert (kunits : Matrix (Fin 3) (Fin 3) ℝ) (nk : Fin 3 → ℕ) (U : List U4) (Q : List Q3) :
    Except String (ℕ → U4) :=
  open Classical in
  if kunits.det = 0 then .error "LinAlgError"
  else
    Q.zipIdx.foldlM (fun u q =>
      match U[q.2]? with
      | some v => .ok fun p => if p < prod3 nk ∧ meshIndex kunits nk p = fileIndex nk q.1 then v else u p
      | none => if ∃ p, p < prod3 nk ∧ meshIndex kunits nk p = fileIndex nk q.1 then .error "IndexError" else .ok u) 0

/-- `read_vasp_crpa_vq_to_triqs`, `/repo/python/triqs_tprf/vasp_crpa_parsers.py:119-129`: bare and screened interaction -/
def readTriqs (npNames : Bool) (kunits : Matrix (Fin 3) (Fin 3) ℝ) (nk : Fin 3 → ℕ)
    (fullU fullV reduV : List (List Row)) (orbsub : List ℕ) : Except String ((ℕ → U4) × (ℕ → U4)) := do
  let ur ← readVasp npNames fullU orbsub
  let vr ← readVasp npNames fullV orbsub
  let vrr ← readVasp npNames reduV orbsub
  let q := vrr.map Prod.fst
  let diff ← npBin (fun x y => x - y) (vr.map Prod.snd) (vrr.map Prod.snd)
  let u ← npBin (fun x y => x + y) (ur.map Prod.snd) diff
  let v ← convert kunits nk (vr.map Prod.snd) q
  let u ← convert kunits nk u q
  return (v, u)

end Verif.Vasp
