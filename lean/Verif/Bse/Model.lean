import Verif.Parallel.Model
import Verif.Nda.Lemmas
import Mathlib.LinearAlgebra.Matrix.NonsingularInverse

/-!
# Two-particle products in the three channels and Bethe-Salpeter equations

Models of `/repo/c++/triqs_tprf/linalg.cpp`, of the Bethe-Salpeter routines in
`/repo/c++/triqs_tprf/lattice/chi_imfreq.cpp:570-1235`, and of `/repo/python/triqs_tprf/bse.py`,
`/repo/python/triqs_tprf/dbse.py`. `ν` is the finite fermionic frequency mesh, `o` the orbital index,
`W` bosonic frequencies, `K` momenta. Exact arithmetic; `inverse` is the matrix inverse.
-/

noncomputable section

namespace Verif.Bse

open Verif.Parallel

/-- rank four target -/
abbrev T4 (o F : Type*) := o → o → o → o → F

/-- data of a two-frequency, rank four quantity: `(n, n', a, b, c, d)` -/
abbrev T6 (ν o F : Type*) := ν → ν → o → o → o → o → F

/-- `Channel_t` -/
inductive Channel where
  /-- particle-hole -/
  | PH
  /-- crossed particle-hole -/
  | PHbar
  /-- particle-particle -/
  | PP

variable {F : Type*} [Field F] {o : Type*} [Fintype o] [DecidableEq o]
variable {ν : Type*} [Fintype ν] [DecidableEq ν]

/-- `channel_matrix_view<CH>`, `/repo/c++/triqs_tprf/channel_grouping.hpp:44-86`. The correspondence
between flat row/column numbers and multi-indices is `Verif.Nda.groupView_PH`, `groupView_PHbar`,
`groupView_PP`. -/
def chMat : Channel → T6 ν o F → Matrix (ν × o × o) (ν × o × o) F
  | .PH, t => fun r c => t r.1 c.1 r.2.1 r.2.2 c.2.2 c.2.1       -- (n,a,b) | (n',d,c)
  | .PHbar, t => fun r c => t r.1 c.1 r.2.1 c.2.2 c.2.1 r.2.2    -- (n,a,d) | (n',c,b)
  | .PP, t => fun r c => t r.1 c.1 r.2.1 c.2.1 r.2.2 c.2.2       -- (n,a,c) | (n',b,d)

/-- reading the same memory through the tensor indices -/
def chTensor : Channel → Matrix (ν × o × o) (ν × o × o) F → T6 ν o F
  | .PH, m => fun n n' a b c d => m (n, a, b) (n', d, c)
  | .PHbar, m => fun n n' a b c d => m (n, a, d) (n', c, b)
  | .PP, m => fun n n' a b c d => m (n, a, c) (n', b, d)

/-- `inverse<CH>(g2_nn)`, `/repo/c++/triqs_tprf/linalg.cpp:28-45`. -/
def inverse (ch : Channel) (g : T6 ν o F) : T6 ν o F := chTensor ch (chMat ch g)⁻¹

/-- `product<CH>(g2_nn, g2_nn)`, `/repo/c++/triqs_tprf/linalg.cpp:62-81`. -/
def product (ch : Channel) (A B : T6 ν o F) : T6 ν o F := chTensor ch (chMat ch A * chMat ch B)

/-- `identity<CH>(g2_nn)`, `/repo/c++/triqs_tprf/linalg.cpp:97-110`. -/
def identity (ch : Channel) : T6 ν o F := chTensor ch (1 : Matrix (ν × o × o) (ν × o × o) F)

/-- `inverse<CH>(g2_iw)`, `/repo/c++/triqs_tprf/linalg.cpp:48-58`. -/
def inverseIw {W : Type*} (ch : Channel) (g : W → T6 ν o F) : W → T6 ν o F :=
  fun w => inverse ch (g w)

/-- `product<CH>(g2_iw, g2_iw)`, `/repo/c++/triqs_tprf/linalg.cpp:84-93`. -/
def productIw {W : Type*} (ch : Channel) (A B : W → T6 ν o F) : W → T6 ν o F :=
  fun w => product ch (A w) (B w)

/-- `identity<CH>(g2_iw)`, `/repo/c++/triqs_tprf/linalg.cpp:113-122`. -/
def identityIw {W : Type*} (ch : Channel) : W → T6 ν o F := fun _ => identity ch

/-- `scalar_product_PH`, `/repo/c++/triqs_tprf/linalg.cpp:180-207`; the three views are
`Verif.Nda.groupView_L`, `groupView_M`, `groupView_R`. -/
def scalarProductPH (vL : ν → T4 o F) (M : T6 ν o F) (vR : ν → T4 o F) : T4 o F :=
  let L : Matrix (o × o) (ν × o × o) F := fun r c => vL c.1 c.2.1 c.2.2 r.2 r.1   -- (d,c)|(n,a,b)
  let m : Matrix (ν × o × o) (ν × o × o) F :=
    fun r c => M r.1 c.1 r.2.1 r.2.2 c.2.1 c.2.2                                 -- (n,a,b)|(n',c,d)
  let R : Matrix (ν × o × o) (o × o) F := fun r c => vR r.1 r.2.2 r.2.1 c.1 c.2   -- (n,b,a)|(c,d)
  fun a b c d => (L * m * R) (a, b) (c, d)

/-- `chi0_nn *= 0; for n: chi0_nn[n, n] = chi0_n[n]`,
`/repo/c++/triqs_tprf/lattice/chi_imfreq.cpp:640-641,703-706`. -/
def diagEmbed (chi0 : ν → T4 o F) : T6 ν o F := fun n m => if n = m then chi0 n else 0

/-- the inverted Bethe-Salpeter equation `inverse(I - chi0 Γ) chi0`,
`/repo/c++/triqs_tprf/lattice/chi_imfreq.cpp:643-647`. -/
def bsePoint (chi0 gamma : T6 ν o F) : T6 ν o F :=
  product .PH (inverse .PH (identity .PH - product .PH chi0 gamma)) chi0

variable {W K : Type*} [DecidableEq W] [DecidableEq K]

/-- `chiq_from_chi0q_and_gamma_PH`, `/repo/c++/triqs_tprf/lattice/chi_imfreq.cpp:623-657`. -/
def chiqFromChi0qAndGamma (chi0 : W → ν → K → T4 o F) (gamma : W → T6 ν o F) : K → W → T6 ν o F :=
  fun k w => bsePoint (diagEmbed fun n => chi0 w n k) (gamma w)

/-- the loop `tr += chi[n1, n2]` and `tr /= beta * beta`,
`/repo/c++/triqs_tprf/lattice/chi_imfreq.cpp:876-882`. -/
def traceNu (beta : F) (chi : T6 ν o F) : T4 o F := fun a b c d =>
  (∑ n1, ∑ n2, chi n1 n2 a b c d) / (beta * beta)

/-- `chiq_sum_nu_from_chi0q_and_gamma_PH`, `/repo/c++/triqs_tprf/lattice/chi_imfreq.cpp:804-920`. -/
def chiqSumNuFromChi0qAndGamma (ranks : ℕ) (beta : F) (mesh : List (K × W))
    (chi0 : W → ν → K → T4 o F) (gamma : W → T6 ν o F) : K × W → T4 o F :=
  distributedAssign ranks mesh fun p =>
    traceNu beta (bsePoint (diagEmbed fun n => chi0 p.2 n p.1) (gamma p.2))

/-- `chiq_sum_nu_from_chi0q_and_gamma_and_L_wn_PH`,
`/repo/c++/triqs_tprf/lattice/chi_imfreq.cpp:661-800`. -/
def chiqSumNuL (ranks : ℕ) (mesh : List (K × W)) (chi0 : W → ν → K → T4 o F)
    (gamma : W → T6 ν o F) (L : W → ν → T4 o F) : K × W → T4 o F :=
  distributedAssign ranks mesh fun p =>
    scalarProductPH (L p.2) (bsePoint (diagEmbed fun n => chi0 p.2 n p.1) (gamma p.2)) (L p.2)

/-- `chiq_sum_nu`, `/repo/c++/triqs_tprf/lattice/chi_imfreq.cpp:1169-1187`: accumulation over the mesh,
then division. -/
def chiqSumNu (beta : F) (chi : K → W → T6 ν o F) : K → W → T4 o F := fun k w a b c d =>
  (∑ n1, ∑ n2, chi k w n1 n2 a b c d) / (beta * beta)

/-- `chiq_sum_nu_q`, `/repo/c++/triqs_tprf/lattice/chi_imfreq.cpp:1189-1203`. -/
def chiqSumNuQ [Fintype K] (beta : F) (chi : K → W → T6 ν o F) : W → T4 o F := fun w a b c d =>
  (∑ k, ∑ n1, ∑ n2, chi k w n1 n2 a b c d) / (Fintype.card K : F) / (beta * beta)

/-- `attatch_tri_vert`, `/repo/c++/triqs_tprf/lattice/chi_imfreq.cpp:1205-1235`. -/
def attachTriVert (ranks : ℕ) (mesh : List (W × K)) (L : W → ν → T4 o F)
    (chi : K → W → T6 ν o F) : W × K → T4 o F :=
  distributedAssign ranks mesh fun p => scalarProductPH (L p.1) (chi p.2 p.1) (L p.1)

/-- `chi0q_sum_nu`, `/repo/c++/triqs_tprf/lattice/chi_imfreq.cpp:489-514`. -/
def chi0qSumNu (ranks : ℕ) (beta : F) (mesh : List (W × K)) (chi0 : W → ν → K → T4 o F) :
    W × K → T4 o F :=
  distributedAssign ranks mesh fun p => fun a b c d =>
    (∑ n, chi0 p.1 n p.2 a b c d) / (beta * beta)

/-- The common part of `chiq_sum_nu_from_g_wk_and_gamma_PH` and
`chiq_sum_nu_from_e_k_sigma_w_and_gamma_PH`
(`/repo/c++/triqs_tprf/lattice/chi_imfreq.cpp:925-1041,1043-1167`). `νt` is the tail mesh, `emb` the
inclusion of the vertex mesh into it (`chi0_n[n] = chi0_n_tail(n)`), `bubble w k` the bubble on the
tail mesh, `density` the TRIQS function of that name (external; any function). A tail mesh smaller
than the vertex mesh is refused. -/
def chiqSumNuTail {νt : Type*} [Fintype νt] (ranks : ℕ) (beta : F) (mesh : List (K × W))
    (emb : ν → νt) (bubble : W → K → νt → T4 o F) (density : (νt → F) → F)
    (gamma : W → T6 ν o F) : Except String (K × W → T4 o F) :=
  if Fintype.card νt < Fintype.card ν then
    .error "BSE: tail size has to be larger than gamma fermi mesh."
  else .ok (distributedAssign ranks mesh fun p =>
    let chi0tail := bubble p.2 p.1
    let chi0 : ν → T4 o F := fun n => chi0tail (emb n)
    let trTail : T4 o F := fun a b c d => density (fun n => chi0tail n a b c d) / beta
    let trChi0 : T4 o F := fun a b c d => (∑ n, chi0 n a b c d) / (beta * beta)
    let trChi := traceNu beta (bsePoint (diagEmbed chi0) (gamma p.2))
    trChi + (trTail - trChi0))

/-! ## bse.py and dbse.py -/

/-- `solve_local_bse`, `/repo/python/triqs_tprf/bse.py:88-118`. The function
`impurity_irreducible_vertex_Gamma` (51-85) applies the same formula to the susceptibilities built by
`chi_from_gg2_PH`, `chi0_from_gg2_PH`. -/
def solveLocalBse (chi0 chi : W → T6 ν o F) : W → T6 ν o F := fun w =>
  inverseIw .PH chi0 w - inverseIw .PH chi w

/-- `impurity_reducible_vertex_F`, `/repo/python/triqs_tprf/dbse.py:36-73` (after the construction of the
two susceptibilities). -/
def reducibleVertexF (chi0 chi : W → T6 ν o F) : W → T6 ν o F :=
  let inv := inverseIw .PH chi0
  productIw .PH inv (productIw .PH (fun w => chi w - chi0 w) inv)

/-- `solve_lattice_dbse`, `/repo/python/triqs_tprf/dbse.py:76-144`, from the non-local bubble on
(lines 131-139). -/
def solveLatticeDbse (ranks : ℕ) (mesh : List (K × W)) (chi0nl : W → ν → K → T4 o F)
    (Fv : W → T6 ν o F) (L : W → ν → T4 o F) (chiImp : W → T4 o F) : K × W → T4 o F := fun p =>
  chiqSumNuL ranks mesh chi0nl Fv L p + chiImp p.2

/-- the vertex part of `solve_lattice_bse`, `/repo/python/triqs_tprf/bse.py:312-408`: `chi0tail` is the
tail corrected bubble (from imaginary time), `chi0` the bubble on the vertex mesh; returns
`(chi_kw, chi0_kw)`. -/
def solveLatticeBse (ranks : ℕ) (beta : F) (mesh : List (K × W)) (wkmesh : List (W × K))
    (chi0tail : W → K → T4 o F) (chi0 : W → ν → K → T4 o F) (gamma : W → T6 ν o F) :
    (K × W → T4 o F) × (K × W → T4 o F) :=
  let dchi : W × K → T4 o F := fun p => chi0tail p.1 p.2 - chi0qSumNu ranks beta wkmesh chi0 p
  (fun p => chiqSumNuFromChi0qAndGamma ranks beta mesh chi0 gamma p + dchi (p.2, p.1),
   fun p => chi0tail p.2 p.1)

end Verif.Bse
