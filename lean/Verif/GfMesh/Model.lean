import Verif.Fourier.Model

/-!
# Meshes and target spaces of Green's functions in `lattice_utils.py`

Model of `/repo/python/triqs_tprf/lattice_utils.py:66-140,272-296,509-587`. Exceptions are values. A Matsubara mesh is
its temperature, statistics and number of positive frequencies; data are functions of the frequency index.
-/

noncomputable section

namespace Verif.GfMesh

open Verif.Fourier

/-- `MeshImFreq(beta, S, n_max)` -/
structure FMesh where
  /-- inverse temperature -/
  beta : ℝ
  /-- statistics -/
  stat : Stat
  /-- number of non-negative frequencies -/
  nmax : ℕ

/-- `mesh.first_index()` -/
def FMesh.first (m : FMesh) : ℤ :=
  match m.stat with
  | .fermion => -m.nmax
  | .boson => -(m.nmax - 1)

/-- `len(mesh)` -/
def FMesh.len (m : FMesh) : ℕ :=
  match m.stat with
  | .fermion => 2 * m.nmax
  | .boson => 2 * m.nmax - 1

/-- indices of the mesh -/
def FMesh.indices (m : FMesh) : List ℤ := (List.range m.len).map fun j : ℕ => (j : ℤ) + m.first

/-- the loop `for w in wmesh: out[w] = g_in[Idx(w.data_index + wmesh.first_index())]`,
`/repo/python/triqs_tprf/lattice_utils.py:115-117,129-131`; `Idx` of a point outside the mesh raises. -/
def copyIndices {α : Type} [Zero α] (src dst : FMesh) (g : ℤ → α) : Except String (ℤ → α) :=
  dst.indices.foldlM (fun out i =>
    if i ∈ src.indices then .ok (Function.update out i (g i)) else .error "index") (fun _ => 0)

/-- `put_gf_on_mesh`, `/repo/python/triqs_tprf/lattice_utils.py:109-119`. -/
def putGfOnMesh {α : Type} [Zero α] (src dst : FMesh) (g : ℤ → α) : Except String (ℤ → α) :=
  if dst.len ≤ src.len then copyIndices src dst g else .error "AssertionError"

/-- `strip_sigma`, `/repo/python/triqs_tprf/lattice_utils.py:122-139`; `debug` uses the undefined name `p`. -/
def stripSigma {α : Type} [Zero α] (nw : ℕ) (beta : ℝ) (src : FMesh) (g : ℤ → α) (debug : Bool) :
    Except String (FMesh × (ℤ → α)) :=
  open Classical in
  if |beta - src.beta| < 1.5 * 10 ^ (-7 : ℤ) then
    let dst : FMesh := ⟨beta, .fermion, nw⟩
    match copyIndices src dst g with
    | .error e => .error e
    | .ok s => if debug then .error "NameError" else .ok (dst, s)
  else .error "AssertionError"

/-- a component of the mesh of a Green's function: its points and, for meshes in time or frequency, its `beta` -/
structure AnyMesh where
  /-- number of points -/
  size : ℕ
  /-- attribute `beta` -/
  beta : Option ℝ

/-- `add_fake_bosonic_mesh`, `/repo/python/triqs_tprf/lattice_utils.py:66-106`; the data of the result at the frequency
`w` (position in the mesh) and the point `x` of the old mesh. -/
def addFakeBosonicMesh {X α : Type} [Zero α] (meshes : List AnyMesh) (g : X → α) (beta : Option ℝ) :
    Except String ((FMesh × List AnyMesh) × (ℕ → X → α)) :=
  open Classical in
  let given : Option ℝ := match beta with
    | none => none
    | some b => if b = 0 then none else some b
  let data : ℕ → X → α := fun w x => if w = 0 then g x else 0
  match given with
  | some b => .ok ((⟨b, .boson, 1⟩, meshes), data)
  | none =>
    match meshes.filterMap AnyMesh.beta with
    | [] => .error "ValueError"
    | b :: _ => .ok ((⟨b, .boson, 1⟩, meshes), data)

/-! ## Target space -/

/-- `chi_contraction`, `/repo/python/triqs_tprf/lattice_utils.py:272-296`: `shape` is the target shape of `chi`, `s1`
and `s2` the shapes of the operators. -/
def chiContraction {X : Type} (shape : ℕ × ℕ × ℕ × ℕ) (chi : X → ℕ → ℕ → ℕ → ℕ → ℂ) (s1 s2 : ℕ × ℕ)
    (op1 op2 : ℕ → ℕ → ℂ) : Except String (X → ℂ) :=
  if (shape.1, shape.2.1) ≠ s1 ∨ (shape.2.2.1, shape.2.2.2) ≠ s2 then .error "ValueError"
  else .ok fun x => ∑ a ∈ Finset.range shape.1, ∑ b ∈ Finset.range shape.2.1, ∑ c ∈ Finset.range shape.2.2.1,
    ∑ d ∈ Finset.range shape.2.2.2, chi x a b c d * op1 a b * op2 c d

/-- `gf_tensor_to_matrix`, `/repo/python/triqs_tprf/lattice_utils.py:509-517`, on a mesh with one component: `reshape` in
C order. -/
def tensorToMatrix {X : Type} (shape : ℕ × ℕ × ℕ × ℕ) (g : X → ℕ → ℕ → ℕ → ℕ → ℂ) : X → ℕ → ℕ → ℂ := fun x r c =>
  let s1 := shape.2.1
  let s2 := shape.2.2.1
  let s3 := shape.2.2.2
  let p := r * (s2 * s3) + c
  g x (p / s3 / s2 / s1) (p / s3 / s2 % s1) (p / s3 % s2) (p % s3)

/-- `gf_matrix_to_tensor`, `/repo/python/triqs_tprf/lattice_utils.py:521-526`; `M` is the number of columns. -/
def matrixToTensor {X : Type} (M : ℕ) (shape : ℕ × ℕ × ℕ × ℕ) (g : X → ℕ → ℕ → ℂ) : X → ℕ → ℕ → ℕ → ℕ → ℂ :=
  fun x a b c d =>
    let p := ((a * shape.2.1 + b) * shape.2.2.1 + c) * shape.2.2.2 + d
    g x (p / M) (p % M)

/-- the frequency data handed to the Pade fit, `/repo/python/triqs_tprf/lattice_utils.py:564-580`: values on a Matsubara
mesh as they are, values on a discrete Lehmann mesh through the expansion (`dlr`), evaluated on a small mesh. -/
inductive FreqData where
  /-- Matsubara mesh -/
  | imfreq
  /-- discrete Lehmann mesh with the map from its values to the values on the small mesh (acting on each component) -/
  | dlr (toSmall : (ℤ → ℂ) → ℤ → ℂ)

/-- apply a map of scalar functions to every component of a matrix function -/
def onComponents {X Y : Type} (T : (X → ℂ) → Y → ℂ) (g : X → ℕ → ℕ → ℂ) : Y → ℕ → ℕ → ℂ :=
  fun y r c => T (fun x => g x r c) y

/-- sampling of the data of one momentum, `/repo/python/triqs_tprf/lattice_utils.py:576-579` -/
def sample (kind : FreqData) (g : ℤ → ℕ → ℕ → ℂ) : ℤ → ℕ → ℕ → ℂ :=
  match kind with
  | .imfreq => g
  | .dlr toSmall => onComponents toSmall g

/-- `pade_analytical_continuation_wk` for a matrix valued function, `/repo/python/triqs_tprf/lattice_utils.py:530-587`;
`pade` is `set_from_pade`, which TRIQS applies to every component. -/
def padeMatrix {K F : Type} (pade : (ℤ → ℂ) → F → ℂ) (kind : FreqData) (g : ℤ → K → ℕ → ℕ → ℂ) :
    F → K → ℕ → ℕ → ℂ := fun f k => onComponents pade (sample kind fun w => g w k) f

/-- the same for a function with four indices, `/repo/python/triqs_tprf/lattice_utils.py:572-574,583-585`. -/
def padeTensor {K F : Type} (pade : (ℤ → ℂ) → F → ℂ) (kind : FreqData) (shape : ℕ × ℕ × ℕ × ℕ)
    (g : ℤ → K → ℕ → ℕ → ℕ → ℕ → ℂ) : F → K → ℕ → ℕ → ℕ → ℕ → ℂ := fun f k =>
  matrixToTensor (shape.2.2.1 * shape.2.2.2) shape
    (onComponents pade (sample kind (tensorToMatrix shape fun w => g w k))) f

end Verif.GfMesh
