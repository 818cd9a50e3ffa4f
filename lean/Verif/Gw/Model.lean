import Verif.Lindhard.Model
import Verif.Util.Model

/-!
# Hartree, Fock and GW self energies

Model of `/repo/c++/triqs_tprf/lattice/gw.cpp`.  Momenta and lattice vectors are points of a periodic lattice
`Lat n`.  The density matrices (TRIQS `density`, convention `ρ(i, j) = <c†_i c_j>`) are inputs.
-/

noncomputable section

namespace Verif.Gw

open Complex Verif.Parallel Verif.Fourier Verif.Bubble Verif.Lindhard

variable {d : ℕ} {n : Fin d → ℕ} [∀ i, NeZero (n i)] {o : Type*} [Fintype o] [DecidableEq o]

/-! ## Static self energies -/

/-- `rho_k_from_g_wk`, `/repo/c++/triqs_tprf/lattice/gw.cpp:36-56` (and 58-77 for DLR meshes); `density` is an
arbitrary functional of the frequency dependence. -/
def rhoK {W E : Type*} [AddCommGroup E] (ranks : ℕ) (kmesh : List (Lat n)) (density : (W → E) → E)
    (g : W → Lat n → E) : Lat n → E :=
  distributedAssign ranks kmesh fun k => density fun w => g w k

/-- `hartree_sigma(v_k, rho_r)`, `/repo/c++/triqs_tprf/lattice/gw.cpp:115-123`: only the cell at the origin is
written. -/
def hartreeR (v : Lat n → T4 o) (rho : Lat n → o → o → ℂ) : Lat n → o → o → ℂ :=
  Function.update (fun _ => 0) 0 fun a b => ∑ c, ∑ d, v 0 a b c d * rho 0 c d

/-- `hartree_sigma(v_k, g_wk)`, `/repo/c++/triqs_tprf/lattice/gw.cpp:125-150` after the mesh comparison. -/
def hartreeK (ranks : ℕ) (kmesh : List (Lat n)) (v : Lat n → T4 o) (dens : Lat n → o → o → ℂ) :
    Lat n → o → o → ℂ :=
  distributedAssign ranks kmesh fun k a b =>
    (kmesh.map fun q => ∑ c, ∑ d, v q a b c d * dens (k + q) c d / kmesh.length).sum

/-- `fock_sigma(v_r, rho_r)`, `/repo/c++/triqs_tprf/lattice/gw.cpp:152-170` after the mesh comparison. -/
def fockR (ranks : ℕ) (rmesh : List (Lat n)) (v : Lat n → T4 o) (rho : Lat n → o → o → ℂ) :
    Lat n → o → o → ℂ :=
  distributedAssign ranks rmesh fun r a b => ∑ c, ∑ d, -v r a c d b * rho r d c

/-- `fock_sigma(v_k, g_wk)`, `/repo/c++/triqs_tprf/lattice/gw.cpp:172-197` after the mesh comparison;
`gw_sigma(v_k, g_wk)` is the same function (lines 199-201). -/
def fockK (ranks : ℕ) (kmesh : List (Lat n)) (v : Lat n → T4 o) (dens : Lat n → o → o → ℂ) :
    Lat n → o → o → ℂ :=
  distributedAssign ranks kmesh fun k a b =>
    (kmesh.map fun q => ∑ c, ∑ d, -v q a c d b * dens (k + q) d c / kmesh.length).sum

/-! ## Dynamic self energy -/

/-- errors raised by the routines -/
inductive GwErr where
  | tauMesh | statistics | rMesh | beta | kMesh
  deriving DecidableEq, Repr

/-- what the routines look at in an imaginary time mesh -/
structure TauMesh where
  size : ℕ
  beta : ℝ
  stat : Stat

/-- what the routines look at in an imaginary frequency mesh: number of non-negative frequencies, inverse
temperature, statistics -/
structure FreqMesh where
  nw : ℕ
  beta : ℝ
  stat : Stat

/-- the inner loop, `/repo/c++/triqs_tprf/lattice/gw.cpp:100` -/
def gwPoint (W : T4 o) (g : o → o → ℂ) : o → o → ℂ := fun a b => ∑ c, ∑ d, -W a c d b * g c d

open scoped Classical in
/-- `gw_dynamic_sigma_impl`, `/repo/c++/triqs_tprf/lattice/gw.cpp:79-104`.  `M` is the type of lattice mesh
descriptions. -/
def gwDynamicSigma {M : Type} (ranks : ℕ) (Wt gt : TauMesh) (Wr gr : M) (mesh : List (ℕ × Lat n))
    (W : ℕ → Lat n → T4 o) (g : ℕ → Lat n → o → o → ℂ) : Except GwErr (ℕ × Lat n → o → o → ℂ) :=
  if Wt.size ≠ gt.size ∨ Wt.beta ≠ gt.beta then .error .tauMesh
  else if Wt.stat ≠ .boson ∨ gt.stat ≠ .fermion then .error .statistics
  else if Wr ≠ gr then .error .rMesh
  else .ok (distributedAssign ranks mesh fun p => gwPoint (W p.1 p.2) (g p.1 p.2))

/-- The external pieces used by `gw_sigma`: transforms between frequency and time of one matrix element
(`_fourier_with_plan<0>`), the zeroth tail coefficient, the density functional and the size of the time mesh
adjoint to a frequency mesh. -/
structure Pieces where
  /-- fermionic frequency → time -/
  gToTau : (ℤ → ℂ) → ℕ → ℂ
  /-- bosonic frequency → time -/
  wToTau : (ℤ → ℂ) → ℕ → ℂ
  /-- fermionic time → frequency -/
  toFreq : (ℕ → ℂ) → ℤ → ℂ
  /-- zeroth moment -/
  tail0 : (ℤ → ℂ) → ℂ
  /-- density of one pair of orbitals, as function of the matrix of Green's functions -/
  dens : (ℤ → ℂ) → ℂ
  /-- `make_adjoint_mesh` -/
  ntau : ℕ → ℕ

/-- `density` of a matrix valued Green's function: `ρ(i, j)` from `g(j, i)`. -/
def densityOf (P : Pieces) (g : ℤ → o → o → ℂ) : o → o → ℂ := fun i j => P.dens fun w => g w j i

open scoped Classical in
/-- `gw_sigma_impl`, `/repo/c++/triqs_tprf/lattice/gw.cpp:203-245`.  `taus` are the indices of the time mesh,
`lat` the list of lattice points (momentum and real space meshes have the same index set).  Everything up to
`sigma_dyn_tr` follows the order of the code: momentum → real space per frequency, then frequency → time. -/
def gwSigma {M : Type} (ranks : ℕ) (P : Pieces) (Ww gw : FreqMesh) (Wk gk : M) (taus : List ℕ)
    (lat : List (Lat n)) (W : ℤ → Lat n → T4 o) (g : ℤ → Lat n → o → o → ℂ) :
    Except GwErr (ℤ → Lat n → o → o → ℂ) :=
  if Ww.beta ≠ gw.beta then .error .beta
  else if Ww.stat ≠ .boson ∨ gw.stat ≠ .fermion then .error .statistics
  else if Wk ≠ gk then .error .kMesh
  else
    let parts := Util.split ranks lat (fun (f : ℤ → T4 o) a b c d => P.tail0 fun w => f w a b c d) W
    let gTr : ℕ → Lat n → o → o → ℂ := fun t r a b => P.gToTau (fun w => kToR (g w) r a b) t
    let WTr : ℕ → Lat n → T4 o := fun t r a b c d => P.wToTau (fun w => kToR (parts.1 w) r a b c d) t
    match gwDynamicSigma ranks ⟨P.ntau Ww.nw, Ww.beta, Ww.stat⟩ ⟨P.ntau gw.nw, gw.beta, gw.stat⟩ Wk gk
        (taus.product lat) WTr gTr with
    | .error e => .error e
    | .ok sdyn =>
      let rho := rhoK ranks lat (densityOf P) g
      let fock := rToK (fockR ranks lat (kToR parts.2) (kToR rho))
      .ok fun w k a b => P.toFreq (fun t => rToK (fun r => sdyn (t, r)) k a b) w + fock k a b

/-! ## Real frequency GW with a non-interacting Green's function -/

variable {K : Type*} [AddCommGroup K]

/-- static part at one momentum, `/repo/c++/triqs_tprf/lattice/gw.cpp:338-366`.  `ek` is the evaluation of
`e_k` at any momentum, `pt` the momentum of a mesh point. -/
def g0wStatic (eig : Eig o) (mu beta : ℝ) (ek : K → Matrix o o ℂ) (pt : Lat n → K) (kmesh : List (Lat n))
    (v : Lat n → T4 o) (kp : K) : o → o → ℂ := fun a b =>
  (kmesh.map fun q =>
    let p := eig (ek (pt q + kp) - (mu : ℂ) • 1)
    ∑ l, -(p.2 a l * p.2.conjTranspose l b * v q a a b b * fermi (p.1 l * beta) / kmesh.length)).sum

/-- `W_spec`, `/repo/c++/triqs_tprf/lattice/gw.cpp:293` -/
def wSpec (W : ℝ → Lat n → T4 o) (v : Lat n → T4 o) (fp : ℝ) (q : Lat n) (a b : o) : ℝ :=
  -1 / Real.pi * (W fp q a a b b - v q a a b b).im

/-- dynamic part at one momentum and one frequency, `/repo/c++/triqs_tprf/lattice/gw.cpp:261-304`, `z = f + iδ`,
`step` is `fmesh.delta()`. -/
def g0wDynamicAt (eig : Eig o) (mu beta : ℝ) (ek : K → Matrix o o ℂ) (pt : Lat n → K) (kmesh : List (Lat n))
    (fmesh : List ℝ) (step : ℝ) (W : ℝ → Lat n → T4 o) (v : Lat n → T4 o) (z : ℂ) (kp : K) : o → o → ℂ :=
  fun a b => (kmesh.map fun q =>
    let p := eig (ek (pt q + kp) - (mu : ℂ) • 1)
    ∑ l, (fmesh.map fun fp =>
      p.2 a l * p.2.conjTranspose l b * ((wSpec W v fp q a b : ℝ)
        * ((bose (fp * beta) + fermi (p.1 l * beta) : ℝ) : ℂ) / (z + fp - p.1 l) * step / kmesh.length)).sum).sum

/-- `g0w_dynamic_sigma` on a momentum mesh, `/repo/c++/triqs_tprf/lattice/gw.cpp:306-332`, after the mesh
comparison (`none`: refused). -/
def g0wDynamic {M : Type} [DecidableEq M] (ranks : ℕ) (eig : Eig o) (mu beta : ℝ) (ek : K → Matrix o o ℂ)
    (pt : Lat n → K) (kW ke kv : M) (kmesh : List (Lat n)) (fmesh : List ℝ) (step : ℝ) (W : ℝ → Lat n → T4 o)
    (v : Lat n → T4 o) (delta : ℝ) : Option (ℝ → Lat n → o → o → ℂ) :=
  if kW ≠ ke ∨ ke ≠ kv then none
  else some fun f k => distributedAssign ranks kmesh
    (fun k f => g0wDynamicAt eig mu beta ek pt kmesh fmesh step W v (f + delta * I) (pt k)) k f

/-- static part on the mesh, `/repo/c++/triqs_tprf/lattice/gw.cpp:368-387` -/
def g0wStaticMesh {M : Type} [DecidableEq M] (ranks : ℕ) (eig : Eig o) (mu beta : ℝ) (ek : K → Matrix o o ℂ)
    (pt : Lat n → K) (ke kv : M) (kmesh : List (Lat n)) (v : Lat n → T4 o) : Option (Lat n → o → o → ℂ) :=
  if ke ≠ kv then none
  else some (distributedAssign ranks kmesh fun k => g0wStatic eig mu beta ek pt kmesh v (pt k))

/-- `g0w_sigma` on the mesh, `/repo/c++/triqs_tprf/lattice/gw.cpp:403-412`; `add_dynamic_and_static` is `Util.addDynStat`. -/
def g0wSigma {M : Type} [DecidableEq M] (ranks : ℕ) (eig : Eig o) (mu beta : ℝ) (ek : K → Matrix o o ℂ)
    (pt : Lat n → K) (kW ke kv : M) (kmesh : List (Lat n)) (fmesh : List ℝ) (step : ℝ) (W : ℝ → Lat n → T4 o)
    (v : Lat n → T4 o) (delta : ℝ) : Option (ℝ → Lat n → o → o → ℂ) :=
  match g0wStaticMesh ranks eig mu beta ek pt ke kv kmesh v,
      g0wDynamic ranks eig mu beta ek pt kW ke kv kmesh fmesh step W v delta with
  | some stat, some dyn => some fun f k =>
      letI := Classical.decEq ℝ
      Util.addDynStat ranks (fmesh.product kmesh) dyn stat (f, k)
  | _, _ => none

/-- `g0w_sigma` at one momentum, `/repo/c++/triqs_tprf/lattice/gw.cpp:391-401` -/
def g0wSigmaAt {M : Type} [DecidableEq M] (eig : Eig o) (mu beta : ℝ) (ek : K → Matrix o o ℂ)
    (pt : Lat n → K) (kW ke kv : M) (kmesh : List (Lat n)) (fmesh : List ℝ) (step : ℝ) (W : ℝ → Lat n → T4 o)
    (v : Lat n → T4 o) (delta : ℝ) (kp : K) : Option (ℝ → o → o → ℂ) :=
  if ke ≠ kv ∨ kW ≠ ke then none
  else some fun f => fun a b => g0wStatic eig mu beta ek pt kmesh v kp a b
    + g0wDynamicAt eig mu beta ek pt kmesh fmesh step W v (f + delta * I) kp a b

/-- Whether `bose(fp * beta)` is evaluated at zero, where the C++ expression `1 / (exp(0) - 1)` is infinite and
`0 * inf` is not a number. -/
def boseSingular (fmesh : List ℝ) (beta : ℝ) : Prop := ∃ fp ∈ fmesh, Real.exp (fp * beta) - 1 = 0

end Verif.Gw
