import Verif.Bubble.Routes
import Verif.Bse.Props
import Verif.GfMesh.Props
import Verif.Dyson.Props

/-!
# The lattice Bethe-Salpeter equation at one bosonic frequency

Model of `/repo/python/triqs_tprf/bse.py:155-511` (the drivers `solve_lattice_bse` and
`solve_lattice_bse_at_specific_w` with the bubbles they compute) and of
`/repo/python/triqs_tprf/lattice_utils.py:191-266`. The transform of `G` to imaginary time, the transform of the bubble from
imaginary time and the evaluation of `G` outside of its mesh are arbitrary maps; the transform of `make_gf_from_fourier`
(TRIQS, used to save memory) is taken to be that of `fourier_tr_to_wr_general_target` (its copy in this repository). Printed
sums are left out; momentum meshes obtained by going to lattice vectors and back are the same meshes.
-/

noncomputable section

namespace Verif.Bse

open Verif.Parallel Verif.Fourier Verif.GfMesh Verif.Bubble Verif.Dyson

variable {d : ℕ} {n : Fin d → ℕ} [∀ i, NeZero (n i)] {o : Type} [Fintype o] [DecidableEq o]

/-- a Green's function on a frequency and momentum mesh, and the routines of TRIQS applied to it -/
structure Lattice (n : Fin d → ℕ) (o : Type) where
  /-- number of processes -/
  ranks : ℕ
  /-- points of the momentum mesh, and of the lattice -/
  lat : List (Lat n)
  /-- temperature of the mesh of `g_wk` -/
  beta : ℝ
  /-- frequencies of the mesh of `g_wk` -/
  freqs : List ℤ
  /-- `g_wk` -/
  g : G n o
  /-- number of intervals of the imaginary time mesh -/
  L : ℕ
  /-- Matsubara frequency to imaginary time -/
  toTau : (ℤ → ℂ) → ℕ → ℂ
  /-- imaginary time to bosonic frequency -/
  four : (ℕ → ℂ) → ℤ → ℂ
  /-- evaluation at any frequency (the mesh, and the tail outside of it) -/
  ext : (ℤ → ℂ) → ℤ → ℂ

variable (p : Lattice n o)

/-- bosonic mesh with the temperature of `g_wk` -/
def Lattice.bosons (nw : ℕ) : FMesh := ⟨p.beta, .boson, nw⟩

/-- fermionic mesh with the temperature of `g_wk` -/
def Lattice.fermions (nwf : ℕ) : FMesh := ⟨p.beta, .fermion, nwf⟩

/-- `fourier_wk_to_wr(g_wk)` -/
def Lattice.gWr : G n o := fourierWkToWr p.ranks p.freqs p.g

/-- `fourier_wr_to_tr(g_wr)` -/
def Lattice.gTr : ℕ → Lat n → o → o → ℂ := fun t r a b => p.toTau (fun w => p.gWr w r a b) t

/-- `imtime_bubble_chi0_wk(g_wk, nw, save_memory)`, `/repo/python/triqs_tprf/lattice_utils.py:191-266`: one frequency by the
trapezoidal rule, several by a Fourier transform, which requires a time mesh that is long enough
(`/repo/c++/triqs_tprf/fourier/fourier_matsubara.cpp:101-105`). -/
def Lattice.timeBubble (nw : ℕ) (save : Bool) : Except String (ℤ → Lat n → Bubble.T4 o) :=
  if nw = 1 then
    .ok (fourierWrToWk p.ranks (p.bosons nw).indices fun w r =>
      if w = 0 then chi0W0r p.ranks p.beta p.L p.lat p.gTr r else 0)
  else if p.L < 2 * nw then .error "Fourier"
  else
    .ok (fourierWrToWk p.ranks (p.bosons nw).indices fun w r =>
      if save then
        chi0wrSaving p.ranks p.lat (fun t => p.L - t) (fun x w a b c d => p.four (fun t => x t a b c d) w) p.gTr r w
      else
        distributedAssign p.ranks p.lat (fun r w a b c d =>
          p.four (fun t => chi0tr p.ranks p.L p.lat p.gTr r t a b c d) w) r w)

/-- the Green's function as the bubble routines see it -/
def Lattice.gExt : G n o := fun nu r a b => p.ext (fun w => p.gWr w r a b) nu

/-- `get_chi0_wnk`, `/repo/python/triqs_tprf/bse.py:158-251` -/
def Lattice.chi0Wnk (nw nwf : ℕ) : ℤ × ℤ → Lat n → Bubble.T4 o :=
  chi0qFromChi0r p.ranks (prodMesh (p.bosons nw).indices (p.fermions nwf).indices)
    (chi0rFromGr p.ranks p.beta p.lat p.gExt)

/-- `add_fake_bosonic_mesh` with data at the frequencies of the new mesh -/
def fake {X α : Type} [Zero α] (meshes : List AnyMesh) (g : X → α) (beta : Option ℝ) :
    Except String (FMesh × (ℤ → X → α)) :=
  match addFakeBosonicMesh meshes g beta with
  | .error e => .error e
  | .ok (m, data) => .ok (m.1, fun w => data w.toNat)

/-- a Matsubara mesh as a component of a mesh -/
def anyMesh (m : FMesh) : AnyMesh := ⟨m.len, some m.beta⟩

/-- a mesh of momenta or lattice vectors -/
def Lattice.anyLat : AnyMesh := ⟨p.lat.length, none⟩

/-- `get_chi0_nk_at_specific_w`, `/repo/python/triqs_tprf/bse.py:254-309` -/
def Lattice.chi0NkAt (nwf : ℕ) (w : ℤ) : Except String (ℤ → Lat n → Bubble.T4 o) :=
  let chi0nr := chi0rAtW p.ranks p.beta p.lat p.gExt w
  match fake (X := ℤ × Lat n) [anyMesh (p.fermions nwf), p.anyLat] (fun x => chi0nr x.2 x.1) none with
  | .error e => .error e
  | .ok (wmesh, chi0wnr) =>
    let chi0wnk := chi0qFromChi0r p.ranks (prodMesh wmesh.indices (p.fermions nwf).indices) fun r w nu => chi0wnr w (nu, r)
    .ok fun nu k => chi0wnk (0, nu) k

/-- the last steps, common to both drivers, `/repo/python/triqs_tprf/bse.py:376-404,466-502`: comparison of the meshes,
Bethe-Salpeter equation, correction by the bubble -/
def Lattice.finish (bmesh fmesh wmesh nmesh : FMesh) (tail : ℤ → Lat n → Bubble.T4 o)
    (chi0 : ℤ → ℤ → Lat n → Bubble.T4 o) (gamma : ℤ → ℤ → ℤ → Bubble.T4 o) :
    Except String ((Lat n × ℤ → Bubble.T4 o) × (Lat n × ℤ → Bubble.T4 o)) :=
  open Classical in
  if wmesh.len ≠ bmesh.len then .error "ValueError"
  else if wmesh ≠ bmesh ∨ nmesh ≠ fmesh then .error "AssertionError"
  else .ok (solveLatticeBse (ν := ↥(fmesh.indices.toFinset)) p.ranks (p.beta : ℂ) (prodMesh p.lat bmesh.indices)
    (prodMesh bmesh.indices p.lat) tail (fun w nu k => chi0 w nu k) fun w nu nu' => gamma w nu nu')

/-- `solve_lattice_bse(g_wk, gamma_wnn)`, `/repo/python/triqs_tprf/bse.py:312-408`; `bmesh` and `fmesh` are the meshes of
`gamma_wnn`. -/
def Lattice.solve (bmesh fmesh : FMesh) (gamma : ℤ → ℤ → ℤ → Bubble.T4 o) :
    Except String ((Lat n × ℤ → Bubble.T4 o) × (Lat n × ℤ → Bubble.T4 o)) :=
  let nw := (bmesh.len + 1) / 2
  let nwf := fmesh.len / 2
  match p.timeBubble nw false with
  | .error e => .error e
  | .ok tail =>
    p.finish bmesh fmesh (p.bosons nw) (p.fermions nwf) tail (fun w nu k => p.chi0Wnk nw nwf (w, nu) k) gamma

/-- `solve_lattice_bse_at_specific_w(g_wk, gamma_wnn, nw_index)`, `/repo/python/triqs_tprf/bse.py:409-511` -/
def Lattice.solveAt (bmesh0 fmesh : FMesh) (gamma0 : ℤ → ℤ → ℤ → Bubble.T4 o) (w : ℤ) :
    Except String ((Lat n → Bubble.T4 o) × (Lat n → Bubble.T4 o)) :=
  if w ∈ bmesh0.indices then
    match fake (X := ℤ × ℤ) [anyMesh fmesh, anyMesh fmesh] (fun x => gamma0 w x.1 x.2) none with
    | .error e => .error e
    | .ok (bmesh, gamma) =>
      let nwf := fmesh.len / 2
      match p.timeBubble (w.natAbs + 1) true with
      | .error e => .error e
      | .ok tail =>
        match fake (X := Lat n) [p.anyLat] (fun k => tail w k) (some bmesh.beta) with
        | .error e => .error e
        | .ok (_, tail1) =>
          match p.chi0NkAt nwf w with
          | .error e => .error e
          | .ok chi0nk =>
            match fake (X := ℤ × Lat n) [anyMesh (p.fermions nwf), p.anyLat] (fun x => chi0nk x.1 x.2) none with
            | .error e => .error e
            | .ok (wmesh, chi0) =>
              match p.finish bmesh fmesh wmesh (p.fermions nwf) tail1 (fun w nu k => chi0 w (nu, k))
                  (fun w nu nu' => gamma w (nu, nu')) with
              | .error e => .error e
              | .ok r => .ok (fun k => r.1 (k, 0), fun k => r.2 (k, 0))
  else .error "IndexError"

end Verif.Bse
