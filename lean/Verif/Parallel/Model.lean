import Mathlib.Algebra.BigOperators.Group.Finset.Basic
import Mathlib.Algebra.BigOperators.Pi
import Mathlib.Logic.Function.Basic

/-!
# Distribution of mesh points over MPI ranks and OpenMP threads

Model of `/repo/c++/triqs_tprf/mpi.hpp:33-48` (`mpi_view`) and of the loop skeletons used by all
lattice routines, e.g. `/repo/c++/triqs_tprf/lattice/gf.cpp:41-58` and `152-192`.
-/

namespace Verif.Parallel

open Finset

/-- `itertools::chunk_range(0, total, n, rank)` as used in
`/repo/c++/triqs_tprf/mpi.hpp:35` (the function itself is in the external library `itertools`:
`chunk_size = total / n`, `n_large = total - n * chunk_size`; the first `n_large` ranks get one more).
`(first, second)` is the half open range of linear mesh indices. -/
def chunkRange (total n rank : ℕ) : ℕ × ℕ :=
  let chunk := total / n
  let nLarge := total - n * chunk
  if rank < nLarge then (rank * (chunk + 1), (rank + 1) * (chunk + 1))
  else (nLarge + rank * chunk, nLarge + (rank + 1) * chunk)

/-- The copying loop `/repo/c++/triqs_tprf/mpi.hpp:41-45`: `size` times `emplace_back(*iter); iter++`. -/
def copyLoop {α : Type*} : ℕ → List α → List α
  | 0, _ => []
  | _ + 1, [] => []   -- dereferencing the end iterator; unreachable, see `mpiView_reads_inside`
  | s + 1, x :: xs => x :: copyLoop s xs

/-- `mpi_view(mesh, c)` with `c.size() = n`, `c.rank() = rank`,
`/repo/c++/triqs_tprf/mpi.hpp:33-48`. The mesh is the list of its points in iteration order. -/
def mpiView {α : Type*} (mesh : List α) (n rank : ℕ) : List α :=
  let slice := chunkRange mesh.length n rank
  let size := slice.2 - slice.1
  copyLoop size (mesh.drop slice.1)

/-- One rank of a loop that assigns: output zero-initialised, then
`for p in arr: out[p] = f(p)` (`/repo/c++/triqs_tprf/lattice/gf.cpp:44-54`). -/
def rankAssign {P M : Type*} [DecidableEq P] [Zero M] (arr : List P) (f : P → M) : P → M :=
  arr.foldl (fun out p => Function.update out p (f p)) (fun _ => 0)

/-- One rank of a loop that accumulates: output zero-initialised, then
`for k in arr: for c: out[c] += f(k, c)` (`/repo/c++/triqs_tprf/lattice/gf.cpp:160-180`). -/
def rankAccumulate {P C M : Type*} [AddZeroClass M] (arr : List P) (f : P → C → M) : C → M :=
  arr.foldl (fun out p => fun c => out c + f p c) (fun _ => 0)

/-- `mpi::all_reduce` (sum over ranks). -/
def allReduce {C M : Type*} [AddCommMonoid M] (n : ℕ) (out : ℕ → C → M) : C → M :=
  fun c => ∑ r ∈ range n, out r c

/-- The complete assigning routine on `n` ranks. -/
def distributedAssign {P M : Type*} [DecidableEq P] [AddCommMonoid M] (n : ℕ) (mesh : List P)
    (f : P → M) : P → M :=
  allReduce n fun r => rankAssign (mpiView mesh n r) f

/-- The complete accumulating routine on `n` ranks. -/
def distributedAccumulate {P C M : Type*} [AddCommMonoid M] (n : ℕ) (mesh : List P)
    (f : P → C → M) : C → M :=
  allReduce n fun r => rankAccumulate (mpiView mesh n r) f

/-! ## OpenMP loops

A thread executes micro steps; `out[c] = v` is one store, `out[c] += v` is a load into a thread
private register followed by a store of register plus `v` (no atomic read-modify-write is assumed).
-/

/-- Micro steps of a thread on shared cells `C` with values `M`. -/
inductive Step (C M : Type*) where
  /-- `out[c] = v` -/
  | store (c : C) (v : M)
  /-- first half of `out[c] += v`: read `out[c]` into the register -/
  | load (c : C)
  /-- second half of `out[c] += v`: write register + v -/
  | storeAdd (c : C) (v : M)

/-- the cell touched by a step -/
def Step.cell {C M : Type*} : Step C M → C
  | .store c _ => c
  | .load c => c
  | .storeAdd c _ => c

/-- Shared memory and one register per thread. -/
structure State (T C M : Type*) where
  /-- the output array -/
  mem : C → M
  /-- registers -/
  reg : T → M

variable {T C M : Type*} [DecidableEq T] [DecidableEq C] [Add M]

/-- Execute one micro step of thread `t`. -/
def exec (s : State T C M) (ts : T × Step C M) : State T C M :=
  match ts.2 with
  | .store c v => { s with mem := Function.update s.mem c v }
  | .load c => { s with reg := Function.update s.reg ts.1 (s.mem c) }
  | .storeAdd c v => { s with mem := Function.update s.mem c (s.reg ts.1 + v) }

/-- Execute a sequence of micro steps. -/
def run (s : State T C M) (l : List (T × Step C M)) : State T C M := l.foldl exec s

/-- The micro steps of one iteration that performs `out[c] = v`. -/
def assignIter (c : C) (v : M) : List (Step C M) := [.store c v]

/-- The micro steps of one iteration that performs `out[c] += v`. -/
def accumIter (c : C) (v : M) : List (Step C M) := [.load c, .storeAdd c v]

end Verif.Parallel
