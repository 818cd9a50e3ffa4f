import Verif.Parallel.Model
import Mathlib.LinearAlgebra.Matrix.NonsingularInverse
import Mathlib.Data.List.Basic

/-!
# Lattice Dyson equation

Model of `/repo/c++/triqs_tprf/lattice/gf.cpp:41-204`. Frequencies are the mesh points of an
arbitrary type `W` with value `val w` (`iω_n` or a real frequency), momenta of type `K`. A mesh is the
list of its points; `inverse` is the matrix inverse (`Matrix` inverse, which is the two sided inverse
exactly when the determinant is invertible). `ranks` is the number of MPI ranks. Exact arithmetic.
-/

noncomputable section

namespace Verif.Dyson

open Verif.Parallel

variable {F : Type*} [Field F] {n : Type*} [Fintype n] [DecidableEq n]
variable {W K : Type*} [DecidableEq W] [DecidableEq K]

/-- The product mesh `{mesh, e_k.mesh()}`, first component slowest. -/
def prodMesh (wmesh : List W) (kmesh : List K) : List (W × K) :=
  wmesh.flatMap fun w => kmesh.map fun k => (w, k)

/-- `lattice_dyson_g0_Xk`, `/repo/c++/triqs_tprf/lattice/gf.cpp:41-58`. -/
def latticeDysonG0Xk (ranks : ℕ) (mu : F) (val : W → F) (wmesh : List W) (kmesh : List K)
    (e : K → Matrix n n F) : W × K → Matrix n n F :=
  distributedAssign ranks (prodMesh wmesh kmesh) fun p =>
    ((val p.1 + mu) • (1 : Matrix n n F) - e p.2)⁻¹

/-- `lattice_dyson_g0_fk`, `/repo/c++/triqs_tprf/lattice/gf.cpp:71-87`; `idelta` is `i δ`. -/
def latticeDysonG0fk (ranks : ℕ) (mu : F) (val : W → F) (wmesh : List W) (kmesh : List K)
    (e : K → Matrix n n F) (idelta : F) : W × K → Matrix n n F :=
  distributedAssign ranks (prodMesh wmesh kmesh) fun p =>
    ((val p.1 + idelta + mu) • (1 : Matrix n n F) - e p.2)⁻¹

/-- The self energy argument: local (arity 1) or momentum dependent (arity 2),
`/repo/c++/triqs_tprf/lattice/gf.cpp:114-116`. -/
inductive Sigma (W K : Type*) (n : Type*) (F : Type*) where
  /-- `sigma[w]` -/
  | local (s : W → Matrix n n F)
  /-- `sigma[w, k]` -/
  | lattice (s : W → K → Matrix n n F)

/-- the `if constexpr` selection of `sigmaterm` -/
def Sigma.term : Sigma W K n F → W → K → Matrix n n F
  | .local s => fun w _ => s w
  | .lattice s => s

/-- `lattice_dyson_g_Xk`, `/repo/c++/triqs_tprf/lattice/gf.cpp:91-123`. -/
def latticeDysonGXk (ranks : ℕ) (mu : F) (val : W → F) (wmesh : List W) (kmesh : List K)
    (e : K → Matrix n n F) (sigma : Sigma W K n F) (idelta : F := 0) : W × K → Matrix n n F :=
  distributedAssign ranks (prodMesh wmesh kmesh) fun p =>
    ((val p.1 + idelta + mu) • (1 : Matrix n n F) - e p.2 - sigma.term p.1 p.2)⁻¹

/-- `lattice_dyson_g_X`, `/repo/c++/triqs_tprf/lattice/gf.cpp:152-192`: every rank accumulates over
its momenta (outer loop) at all frequencies (inner loop), then `all_reduce`, then division by the
number of momenta. -/
def latticeDysonGX (ranks : ℕ) (mu : F) (val : W → F) (wmesh : List W) (kmesh : List K)
    (e : K → Matrix n n F) (sigma : Sigma W K n F) (idelta : F := 0) : W → Matrix n n F :=
  fun w => ((kmesh.length : F))⁻¹ • distributedAccumulate ranks kmesh
    (fun k w => if w ∈ wmesh then
      ((val w + idelta + mu) • (1 : Matrix n n F) - e k - sigma.term w k)⁻¹ else 0) w

end Verif.Dyson
