import Verif.Operators.Library
import Mathlib.Data.List.FinRange
import Mathlib.Analysis.Complex.Norm

/-!
# Model of `python/triqs_tprf/OperatorUtils.py`

Fundamental operators are given by their index tuples `fs : List ι` (the python
code takes the operators `c(*idx)` and serialises them, OperatorUtils.py:85-109,
refusing creation operators).  Tensors are functions on `Fin fs.length`.
An operator argument that is iterated over (`for term in op`) is given as the
list `ts` of its `(monomial, coefficient)` pairs.
-/

noncomputable section

namespace Verif.Operators

variable {ι : Type} [LinearOrder ι]

/-- `AssertionError` -/
inductive Err
  | assertion
deriving DecidableEq, Repr

/-- `op_idx_map.index(t)` guarded by `t in op_idx_set` (OperatorUtils.py:117-131). -/
def lookup (fs : List ι) (t : ι) : Option (Fin fs.length) := fs.finIdxOf? t

/-! ### Quadratic operators -/

/-- The hermiticity check of OperatorUtils.py:57: `assert_array_almost_equal`,
six decimals, i.e. a difference below `1.5e-6` everywhere. -/
def AlmostHermitian {n : ℕ} (h : Fin n → Fin n → ℂ) : Prop :=
  ∀ i j, ‖h i j - starRingEnd ℂ (h j i)‖ < 15 / 10000000

/-- The double loop of OperatorUtils.py:59-65. -/
def quadLoop (fs : List ι) (h : Fin fs.length → Fin fs.length → ℂ) : Op ι :=
  (List.finRange fs.length).foldl (fun H i =>
    (List.finRange fs.length).foldl (fun H j =>
      H + mul (h i j • dagger (c (fs.get i))) (c (fs.get j))) H) 0

open Classical in
/-- `get_quadratic_operator` (OperatorUtils.py:54-65). -/
def getQuadraticOperator (fs : List ι) (h : Fin fs.length → Fin fs.length → ℂ) :
    Except Err (Op ι) :=
  if AlmostHermitian h then .ok (quadLoop fs h) else .error .assertion

/-- `h_quad[i, j] = prefactor` -/
def set2 {n : ℕ} (h : Fin n → Fin n → ℂ) (i j : Fin n) (v : ℂ) : Fin n → Fin n → ℂ :=
  fun i' j' => if i' = i ∧ j' = j then v else h i' j'

/-- One pass of the loop OperatorUtils.py:123-131. -/
def quadStep (fs : List ι) (h : Fin fs.length → Fin fs.length → ℂ) (t : Mono ι × ℂ) :
    Except Err (Fin fs.length → Fin fs.length → ℂ) :=
  match t.1 with
  | [g1, g2] =>
    if g1.dag = true ∧ g2.dag = false then
      match lookup fs g1.idx, lookup fs g2.idx with
      | some i, some j => .ok (set2 h i j t.2)
      | _, _ => .ok h
    else .error .assertion
  | _ => .ok h

/-- `quadratic_matrix_from_operator` (OperatorUtils.py:112-133). -/
def quadraticMatrixFromOperator (fs : List ι) (ts : List (Mono ι × ℂ)) :
    Except Err (Fin fs.length → Fin fs.length → ℂ) :=
  ts.foldlM (quadStep fs) fun _ _ => 0

/-! ### Quartic tensors -/

/-- A rank four tensor. -/
abbrev T4 (n : ℕ) := Fin n → Fin n → Fin n → Fin n → ℂ

/-- `quartic_permutation_symmetrize` (OperatorUtils.py:136-141). -/
def permSym {n : ℕ} (U : T4 n) : T4 n :=
  let U1 : T4 n := fun i j k l => (1 / 2 : ℂ) * (U i j k l - U j i k l)
  fun i j k l => (1 / 2 : ℂ) * (U1 i j k l - U1 i j l k)

/-- `np.swapaxes(U, 1, 2)` -/
def swap12 {n : ℕ} (U : T4 n) : T4 n := fun i j k l => U i k j l

/-- `np.swapaxes(U, 0, 3)` -/
def swap03 {n : ℕ} (U : T4 n) : T4 n := fun i j k l => U l j k i

/-- `quartic_conjugation_symmetrize` (OperatorUtils.py:144-148). -/
def conjSym {n : ℕ} (U : T4 n) : T4 n := fun i j k l =>
  (1 / 2 : ℂ) * (U i j k l + starRingEnd ℂ (swap03 (swap12 U) i j k l))

/-- `quartic_pauli_symmetrize` (OperatorUtils.py:151-160): the loop over `n`,
each pass clearing `U[n, n, :, :]` and `U[:, :, n, n]`.  (The python function
also does this in place on its argument.) -/
def pauliSym {n : ℕ} (U : T4 n) : T4 n :=
  (List.finRange n).foldl (fun V a =>
    let V1 : T4 n := fun i j k l => if i = a ∧ j = a then 0 else V i j k l
    fun i j k l => if k = a ∧ l = a then 0 else V1 i j k l) U

/-- `symmetrize_quartic_tensor` (OperatorUtils.py:163-189). -/
def symmetrizeQuartic {n : ℕ} (U : T4 n) (conjugation : Bool) : T4 n :=
  let U1 := permSym U
  let U2 := if conjugation then conjSym U1 else U1
  pauliSym U2

/-- `h_quart[i, j, k, l] = v` -/
def set4 {n : ℕ} (h : T4 n) (i j k l : Fin n) (v : ℂ) : T4 n :=
  fun i' j' k' l' => if i' = i ∧ j' = j ∧ k' = k ∧ l' = l then v else h i' j' k' l'

/-- The writes of one term (OperatorUtils.py:215-228). -/
def quartWrite {n : ℕ} (permSymFlag : Bool) (h : T4 n) (i j k l : Fin n) (p : ℂ) : T4 n :=
  if permSymFlag then
    let h1 := set4 h i j k l (1 / 4 * p)
    let h2 := set4 h1 j i k l (-(1 / 4) * p)
    let h3 := set4 h2 j i l k (1 / 4 * p)
    set4 h3 i j l k (-(1 / 4) * p)
  else set4 h i j k l p

/-- One pass of the loop OperatorUtils.py:203-228. -/
def quartStep (fs : List ι) (permSymFlag : Bool) (h : T4 fs.length) (t : Mono ι × ℂ) :
    Except Err (T4 fs.length) :=
  match t.1 with
  | [g1, g2, g3, g4] =>
    if g1.dag = true ∧ g2.dag = true ∧ g3.dag = false ∧ g4.dag = false then
      match lookup fs g1.idx, lookup fs g2.idx, lookup fs g3.idx, lookup fs g4.idx with
      | some i, some j, some k, some l => .ok (quartWrite permSymFlag h i j k l t.2)
      | _, _, _, _ => .ok h
    else .error .assertion
  | _ => .ok h

/-- `quartic_tensor_from_operator` (OperatorUtils.py:192-230). -/
def quarticTensorFromOperator (fs : List ι) (permSymFlag : Bool) (ts : List (Mono ι × ℂ)) :
    Except Err (T4 fs.length) :=
  ts.foldlM (quartStep fs permSymFlag) fun _ _ _ _ => 0

/-- `operator_from_quartic_tensor` (OperatorUtils.py:233-251). -/
def operatorFromQuarticTensor (fs : List ι) (h : T4 fs.length) : Op ι :=
  let r := List.finRange fs.length
  r.foldl (fun H i => r.foldl (fun H j => r.foldl (fun H k => r.foldl (fun H l =>
    H + mul (mul (mul (h i j k l • dagger (c (fs.get i))) (dagger (c (fs.get j))))
      (c (fs.get k))) (c (fs.get l))) H) H) H) 0

/-- `get_rpa_tensor` (rpa_tensor.py:58-70): extraction, `4 *` permutation
symmetrisation, `np.transpose(U, (2, 0, 3, 1))`. -/
def getRpaTensor (fs : List ι) (ts : List (Mono ι × ℂ)) : Except Err (T4 fs.length) := do
  let U ← quarticTensorFromOperator fs false ts
  let V : T4 fs.length := fun i j k l => 4 * permSym U i j k l
  -- result[a, b, c, d] with axis 0 of the result = axis 2 of the input, and so on
  return fun a b c d => V b d a c

/-! ### Substitutions -/

/-- The factor loop shared by OperatorUtils.py:292-307 and 329-342: each
elementary operator is replaced by `s g`, the product is taken from left to
right, the prefactor comes last. -/
def substTerm (s : Gen ι → Op ι) (t : Mono ι × ℂ) : Op ι :=
  t.2 • t.1.foldl (fun f g => mul f (s g)) one

/-- The term loop OperatorUtils.py:290-309 and 327-344. -/
def substLoop (s : Gen ι → Op ι) (ts : List (Mono ι × ℂ)) : Op ι :=
  ts.foldl (fun acc t => acc + substTerm s t) 0

/-- `c_transf` (OperatorUtils.py:267-279). -/
def cTransf (fs : List ι) (U : Fin fs.length → Fin fs.length → ℂ) (t : ι) : Op ι :=
  match lookup fs t with
  | none => c t
  | some k => (List.finRange fs.length).foldl (fun r l => r + U k l • c (fs.get l)) 0

/-- The dictionary of OperatorUtils.py:283-287 with its fall back (line 302). -/
def transGen (fs : List ι) (U : Fin fs.length → Fin fs.length → ℂ) (g : Gen ι) : Op ι :=
  if g.idx ∈ fs then
    if g.dag then dagger (cTransf fs U g.idx) else cTransf fs U g.idx
  else elem g

/-- `operator_single_particle_transform` (OperatorUtils.py:254-309), `U` square
of the size of the operator list. -/
def singleParticleTransform (fs : List ι) (U : Fin fs.length → Fin fs.length → ℂ)
    (ts : List (Mono ι × ℂ)) : Op ι :=
  substLoop (transGen fs U) ts

/-- Replacement table of `relabel_operators`: first match in `from_list`, daggers
included (OperatorUtils.py:318-338).  The two lists have the same length. -/
def relabelGen (src : List (Gen ι)) (dst : Fin src.length → Op ι) (g : Gen ι) : Op ι :=
  match src.finIdxOf? g with
  | none => elem g
  | some k => dst k

/-- `relabel_operators` (OperatorUtils.py:312-344). -/
def relabelOperators (src : List (Gen ι)) (dst : Fin src.length → Op ι)
    (ts : List (Mono ι × ℂ)) : Op ι :=
  substLoop (relabelGen src dst) ts

end Verif.Operators
