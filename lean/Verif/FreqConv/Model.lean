import Mathlib.Algebra.Field.Basic
import Mathlib.Data.List.Basic
import Mathlib.Data.Matrix.Basic
import Mathlib.Tactic.Ring

/-!
# Frequency notations of two-particle Green's functions and their construction from blocks

Model of `/repo/c++/triqs_tprf/freq_conv.cpp` and of the frequency-diagonal susceptibilities of
`/repo/c++/triqs_tprf/chi_from_gg2.cpp`.

Matsubara frequencies are integers (fermionic index `n` stands for `ν_n = (2n+1)π/β`, bosonic `w` for
`ω_w = 2wπ/β`).  In that encoding `ν_n + ω_w ↦ n + w`, `ω_w - ν_n ↦ w - n - 1` and
`ν_{n1} - ν_{n2} + ν_{n3} ↦ n1 - n2 + n3` (`triqs/mesh/imfreq.hpp`, arithmetic of `matsubara_freq`).
The finite window of a mesh is not modelled for the pure re-indexing functions; the in-place sweep of
`block_3nu_AABB_to_tensor_valued` is modelled with an explicit list of mesh points.
-/

namespace Verif.FreqConv

variable {F : Type*} [Field F]

/-- value of a tensor valued Green's function at one frequency point -/
abbrev T4 (o : Type*) (F : Type*) := o → o → o → o → F

/-- tensor valued Green's function of three frequencies -/
abbrev G3 (o : Type*) (F : Type*) := ℤ → ℤ → ℤ → T4 o F

/-! ## Re-indexing, `/repo/c++/triqs_tprf/freq_conv.cpp:128-152` -/

/-- `from_3nu_PH`: `g2_ch(w, n, np) << g2(n, n + w, np + w)`, lines 131-133. -/
def from3nuPH {o : Type*} (g2 : G3 o F) : G3 o F := fun w n np => g2 n (n + w) (np + w)

/-- `from_3nu_PH_bar`: `g2_ch(w, n, np) << g2(n, np, np + w)`, lines 138-140. -/
def from3nuPHbar {o : Type*} (g2 : G3 o F) : G3 o F := fun w n np => g2 n np (np + w)

/-- `from_3nu_PP`: `g2_ch(w, n, np) << g2(n, np, w - np)`, lines 145-147. -/
def from3nuPP {o : Type*} (g2 : G3 o F) : G3 o F := fun w n np => g2 n np (w - np - 1)

/-! ## Construction from blocks -/

/-- memory of a tensor valued three frequency function -/
abbrev Mem (o : Type*) (F : Type*) := (ℤ × ℤ × ℤ) × (o × o × o × o) → F

/-- one element assignment -/
def write {o : Type*} [DecidableEq o] (m : Mem o F) (p : (ℤ × ℤ × ℤ) × (o × o × o × o)) (v : F) :
    Mem o F := fun q => if q = p then v else m q

/-- the clef loop `g2(n1, n2, n3)(a, b, c, d) << kronecker(a,b) * kronecker(c,d) * bg2_AABB(a,
c)(n1, n2, n3)(0, 0, 0, 0)`, `/repo/c++/triqs_tprf/freq_conv.cpp:109-110`. -/
def aabbStep {o : Type*} [DecidableEq o] (bg : o → o → ℤ → ℤ → ℤ → F) (m : Mem o F)
    (p : (ℤ × ℤ × ℤ) × (o × o × o × o)) : Mem o F :=
  write m p ((if p.2.1 = p.2.2.1 then 1 else 0) * (if p.2.2.2.1 = p.2.2.2.2 then 1 else 0)
    * bg p.2.1 p.2.2.2.1 p.1.1 p.1.2.1 p.1.2.2)

/-- the clef loop of lines 117-119: it reads and writes the same memory.  A read outside the mesh
returns zero (the initial content of `Mem` outside the mesh). -/
def abbaStep {o : Type*} [DecidableEq o] (m : Mem o F)
    (p : (ℤ × ℤ × ℤ) × (o × o × o × o)) : Mem o F :=
  let a := p.2.1; let b := p.2.2.1; let c := p.2.2.2.1; let d := p.2.2.2.2
  let n1 := p.1.1; let n2 := p.1.2.1; let n3 := p.1.2.2
  write m p (m p + (if a = d then 1 else 0) * (if b = c then 1 else 0) * (1 - (if a = c then 1 else 0))
    * -(m ((n1, n1 - n2 + n3, n3), (a, d, c, b))))

/-- `block_3nu_AABB_to_tensor_valued`, `/repo/c++/triqs_tprf/freq_conv.cpp:98-120`.  `points` is the list
of all (frequency, orbital) points of the target in the order in which the loops visit them; before,
`g2 *= 0.0`. -/
def blockAABBtoTensor {o : Type*} [DecidableEq o] (points points' : List ((ℤ × ℤ × ℤ) × (o × o × o × o)))
    (bg : o → o → ℤ → ℤ → ℤ → F) : Mem o F :=
  points'.foldl abbaStep (points.foldl (aabbStep bg) fun _ => 0)

/-- one block of a block Green's function at one frequency: its size and its entries -/
structure Block (F : Type*) where
  size : ℕ
  val : ℕ → ℕ → F

/-- loop body of `block_iw_AB_to_matrix_valued`, `/repo/c++/triqs_tprf/freq_conv.cpp:58-66`; state is `idx`
and the data. -/
def blockStep (s : ℕ × (ℕ → ℕ → F)) (b : Block F) : ℕ × (ℕ → ℕ → F) :=
  (s.1 + b.size, fun i j =>
    if (s.1 ≤ i ∧ i < s.1 + b.size) ∧ (s.1 ≤ j ∧ j < s.1 + b.size) then b.val (i - s.1) (j - s.1)
    else s.2 i j)

/-- `block_iw_AB_to_matrix_valued` at one frequency,
`/repo/c++/triqs_tprf/freq_conv.cpp:46-69`: total size and data. -/
def blockToMatrix (bs : List (Block F)) : ℕ × (ℕ → ℕ → F) :=
  let n := bs.foldl (fun n b => n + b.size) 0
  (n, (bs.foldl blockStep (0, fun _ _ => 0)).2)

/-! ## Susceptibilities from `g` and `g2` -/

/-- single particle Green's function: value at a fermionic frequency -/
abbrev G1 (o : Type*) (F : Type*) := ℤ → o → o → F

/-- `kronecker` of clef on frequencies -/
def kr (x y : ℤ) : F := if x = y then 1 else 0

/-- `chi0_from_gg2<PH>`, `/repo/c++/triqs_tprf/chi_from_gg2.cpp:44-52`. -/
def chi0PH {o : Type*} (beta : F) (g : G1 o F) : G3 o F := fun w n np a b c d =>
  -beta * kr n np * g n d a * g (w + n) b c

/-- `chi_from_gg2<PH>`, `/repo/c++/triqs_tprf/chi_from_gg2.cpp:54-63`. -/
def chiPH {o : Type*} (beta : F) (g : G1 o F) (g2 : G3 o F) : G3 o F := fun w n np a b c d =>
  g2 w n np a b c d - beta * kr w 0 * g n b a * g np d c

/-- `chi0_from_gg2<PP>`, `/repo/c++/triqs_tprf/chi_from_gg2.cpp:81-89`. -/
def chi0PP {o : Type*} (beta : F) (g : G1 o F) : G3 o F := fun w n np a b c d =>
  -beta * kr n np * g n d a * g (w - n - 1) b c

/-- `chi_from_gg2<PP>`, `/repo/c++/triqs_tprf/chi_from_gg2.cpp:91-100`; `kronecker(n + np, Omega)` compares
the sum of two fermionic frequencies (index `n + np + 1`) with the bosonic one. -/
def chiPP {o : Type*} (beta : F) (g : G1 o F) (g2 : G3 o F) : G3 o F := fun w n np a b c d =>
  g2 w n np a b c d - beta * kr (n + np + 1) w * g n b a * g np d c

end Verif.FreqConv
