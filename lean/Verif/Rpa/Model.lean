import Verif.Parallel.Model
import Verif.Nda.Model
import Mathlib.LinearAlgebra.Matrix.NonsingularInverse
import Mathlib.Logic.Equiv.Fin.Basic

/-!
# Random phase approximation and screened interaction

Models of `/repo/c++/triqs_tprf/lattice/rpa.cpp`,
`/repo/c++/triqs_tprf/lattice/dynamical_screened_interaction.cpp` and
`/repo/python/triqs_tprf/matrix_rpa.py`. Exact arithmetic over a field; `inverse` is the matrix
inverse.
-/

noncomputable section

namespace Verif.Rpa

open Verif.Parallel

/-- rank four tensors on the orbital index `o` -/
abbrev T4 (o F : Type*) := o → o → o → o → F

variable {F : Type*} [Field F] {o : Type*} [Fintype o] [DecidableEq o]
variable {P : Type*} [DecidableEq P]

/-- `make_matrix_view(group_indices_view(arr, idx_group<0,1>, idx_group<3,2>))` of a C-ordered array,
`/repo/c++/triqs_tprf/lattice/rpa.cpp:40,54,55`. By `Verif.Nda.groupView_01_32` the element in row
`a nb + b` and column `c nb + d` is `arr(a,b,c,d)`. -/
def pairMat (t : T4 o F) : Matrix (o × o) (o × o) F := fun p q => t p.1 p.2 q.1 q.2

/-- reading the array back through its own indices -/
def matTensor (m : Matrix (o × o) (o × o) F) : T4 o F := fun a b c d => m (a, b) (c, d)

/-- loop body of `solve_rpa_PH`, `/repo/c++/triqs_tprf/lattice/rpa.cpp:50-57`. -/
def rpaPoint (chi0 U : T4 o F) : T4 o F :=
  matTensor ((1 - pairMat chi0 * pairMat U)⁻¹ * pairMat chi0)

/-- `solve_rpa_PH`, `/repo/c++/triqs_tprf/lattice/rpa.cpp:29-64`. -/
def solveRpaPH (ranks : ℕ) (mesh : List P) (chi0 : P → T4 o F) (U : T4 o F) : P → T4 o F :=
  distributedAssign ranks mesh fun p => rpaPoint (chi0 p) U

/-- loop body for the bubble route,
`/repo/c++/triqs_tprf/lattice/dynamical_screened_interaction.cpp:69-74`. -/
def screenedBubblePoint (chi V : T4 o F) : T4 o F :=
  matTensor (pairMat V * (1 - pairMat chi * pairMat V)⁻¹)

/-- loop body for the generalised susceptibility,
`/repo/c++/triqs_tprf/lattice/dynamical_screened_interaction.cpp:69-76`. -/
def screenedGeneralizedPoint (chi V : T4 o F) : T4 o F :=
  matTensor (pairMat V * pairMat chi * pairMat V + pairMat V)

/-- loop body of `dynamical_screened_interaction_W_opt_bubble`,
`/repo/c++/triqs_tprf/lattice/dynamical_screened_interaction.cpp:107-126`: explicit index loops
(written as sums) around a matrix inverse. -/
def screenedOptPoint (chi V : T4 o F) : T4 o F :=
  let denom : T4 o F := fun a b c d =>
    matTensor (1 : Matrix (o × o) (o × o) F) a b c d - ∑ e, ∑ f, chi a b e f * V e f c d
  let invDenom : T4 o F := matTensor (pairMat denom)⁻¹
  fun a b c d => ∑ e, ∑ f, V a b e f * invDenom e f c d

/-- The interaction argument: static `V_k` or dynamic `V_wk` (arity 1 or 2,
`/repo/c++/triqs_tprf/lattice/dynamical_screened_interaction.cpp:62-66`). -/
inductive Bare (W K o F : Type*) where
  /-- `V[k]` -/
  | static (v : K → T4 o F)
  /-- `V[w, k]` -/
  | dynamic (v : W → K → T4 o F)

variable {W K : Type*} [DecidableEq W] [DecidableEq K]

/-- selection of `V_arr` -/
def Bare.at : Bare W K o F → W → K → T4 o F
  | .static v => fun _ k => v k
  | .dynamic v => v

/-- `screened_interaction_from_generic_susceptibility<bubble>`,
`/repo/c++/triqs_tprf/lattice/dynamical_screened_interaction.cpp:34-83`; `vkmesh` is the momentum
mesh of `V`; a mismatch throws. -/
def screenedBubble (ranks : ℕ) (mesh : List (W × K)) (kmesh vkmesh : List K)
    (chi : W × K → T4 o F) (V : Bare W K o F) : Except String (W × K → T4 o F) :=
  if kmesh ≠ vkmesh then .error "k-space meshes are not the same" else
  .ok (distributedAssign ranks mesh fun p => screenedBubblePoint (chi p) (V.at p.1 p.2))

/-- `screened_interaction_from_generic_susceptibility<generalized>`, same lines. -/
def screenedGeneralized (ranks : ℕ) (mesh : List (W × K)) (kmesh vkmesh : List K)
    (chi : W × K → T4 o F) (V : Bare W K o F) : Except String (W × K → T4 o F) :=
  if kmesh ≠ vkmesh then .error "k-space meshes are not the same" else
  .ok (distributedAssign ranks mesh fun p => screenedGeneralizedPoint (chi p) (V.at p.1 p.2))

/-- `dynamical_screened_interaction_W_opt_bubble`,
`/repo/c++/triqs_tprf/lattice/dynamical_screened_interaction.cpp:85-130`. -/
def screenedOpt (ranks : ℕ) (mesh : List (W × K)) (kmesh vkmesh : List K)
    (chi : W × K → T4 o F) (V : K → T4 o F) : Except String (W × K → T4 o F) :=
  if kmesh ≠ vkmesh then .error "k-space meshes are not the same" else
  .ok (distributedAssign ranks mesh fun p => screenedOptPoint (chi p) (V p.2))

/-! ## matrix_rpa.py -/

/-- `tprf_order_to_matrix_rpa_order`, `/repo/python/triqs_tprf/matrix_rpa.py:42-48`. -/
def swapLast (t : T4 o F) : T4 o F := fun a b c d => t a b d c

/-- The index list `diag + list(set(idx) - set(diag))`, `/repo/python/triqs_tprf/matrix_rpa.py:157-159`
and `180-182`. `ord` is the (unspecified) iteration order of the Python set. -/
def idxList (n : ℕ) (ord : List ℕ → List ℕ) : List ℕ :=
  let idx := List.range (n ^ 2)
  let diag := idx.filter fun i => i % (n + 1) = 0        -- idx[::norb+1]
  diag ++ ord (idx.filter fun i => i ∉ diag)

/-- element `i` of the index list, as an index of the `n² × n²` matrix -/
def idxVec (n : ℕ) (ord : List ℕ → List ℕ) (i : Fin (n * n)) : Fin (n * n) :=
  if h : (idxList n ord).getD i 0 < n * n then ⟨(idxList n ord).getD i 0, h⟩ else i

/-- `idx.index(l)`, `/repo/python/triqs_tprf/matrix_rpa.py:183`. -/
def idxPos (n : ℕ) (ord : List ℕ → List ℕ) (l : Fin (n * n)) : Fin (n * n) :=
  if h : (idxList n ord).idxOf (l : ℕ) < n * n then ⟨(idxList n ord).idxOf (l : ℕ), h⟩ else l

/-- C-order `reshape` of a rank 4 tensor to a matrix -/
def reshapeMat {n : ℕ} (t : T4 (Fin n) F) : Matrix (Fin (n * n)) (Fin (n * n)) F := fun i j =>
  t i.divNat i.modNat j.divNat j.modNat

/-- C-order `reshape` of a matrix to a rank 4 tensor -/
def reshapeTensor {n : ℕ} (m : Matrix (Fin (n * n)) (Fin (n * n)) F) : T4 (Fin n) F :=
  fun a b c d => m (finProdFinEquiv (a, b)) (finProdFinEquiv (c, d))

/-- `tensor_to_matrix`, `/repo/python/triqs_tprf/matrix_rpa.py:145-166` (one element of the leading
axes). -/
def tensorToMatrix {n : ℕ} (ord : List ℕ → List ℕ) (t : T4 (Fin n) F) :
    Matrix (Fin (n * n)) (Fin (n * n)) F := fun i j =>
  reshapeMat t (idxVec n ord i) (idxVec n ord j)

/-- `matrix_to_tensor`, `/repo/python/triqs_tprf/matrix_rpa.py:169-191`. -/
def matrixToTensor {n : ℕ} (ord : List ℕ → List ℕ) (m : Matrix (Fin (n * n)) (Fin (n * n)) F) :
    T4 (Fin n) F :=
  reshapeTensor fun i j => m (idxPos n ord i) (idxPos n ord j)

/-- `matrix_rpa`, `/repo/python/triqs_tprf/matrix_rpa.py:194-212`. -/
def matrixRpa {m : Type*} [Fintype m] [DecidableEq m] (chi0 u : Matrix m m F) : Matrix m m F :=
  (1 - chi0 * u)⁻¹ * chi0

/-- `chi_rpa_spin`, `/repo/python/triqs_tprf/matrix_rpa.py:215-234`. -/
def chiRpaSpin {n : ℕ} (ord : List ℕ → List ℕ) (chi0 us : T4 (Fin n) F) : T4 (Fin n) F :=
  matrixToTensor ord (matrixRpa (tensorToMatrix ord chi0) (tensorToMatrix ord us))

/-- `chi_rpa_charge`, `/repo/python/triqs_tprf/matrix_rpa.py:237-257`. -/
def chiRpaCharge {n : ℕ} (ord : List ℕ → List ℕ) (chi0 uc : T4 (Fin n) F) : T4 (Fin n) F :=
  matrixToTensor ord (matrixRpa (tensorToMatrix ord chi0) (-tensorToMatrix ord uc))

end Verif.Rpa
