import Verif.Bse.Specific
import Verif.FreqConv.Model

/-!
# Frequencies outside the meshes

The bubbles and the changes of notation read Green's functions at sums and differences of frequencies, which may lie outside
the mesh on which the function is given. Here the meshes are finite. TRIQS has two ways to read: `g(ν)` gives the value at `ν`
if it is in the mesh and otherwise something computed from the values on the mesh (zero, a fitted tail; any rule here), `g[ν]`
reads the memory and must not be used outside the mesh.
-/

noncomputable section

namespace Verif.Window

open Verif.Parallel Verif.Fourier Verif.GfMesh Verif.Bubble Verif.Bse

/-- index of a mesh `mesh::imfreq{beta, Fermion, N}` -/
def InF (N : ℕ) (x : ℤ) : Prop := -(N : ℤ) ≤ x ∧ x < N

/-- index of a mesh `mesh::imfreq{beta, Boson, N}` -/
def InB (N : ℕ) (x : ℤ) : Prop := -(N : ℤ) < x ∧ x < N

instance (N : ℕ) : DecidablePred (InF N) := fun x => inferInstanceAs (Decidable (-(N : ℤ) ≤ x ∧ x < N))

instance (N : ℕ) : DecidablePred (InB N) := fun x => inferInstanceAs (Decidable (-(N : ℤ) < x ∧ x < N))

/-- what is stored: the values at the points of the mesh `W` -/
def seen {X V : Type*} [Zero V] (W : X → Prop) [DecidablePred W] (f : X → V) : X → V := fun x => if W x then f x else 0

/-- `g(x)`: the stored value, or what the rule makes of the stored values -/
def ev {X V : Type*} [Zero V] (W : X → Prop) [DecidablePred W] (rule : (X → V) → X → V) (f : X → V) : X → V := fun x =>
  if W x then f x else rule (seen W f) x

/-- `g[x]`: `none` is a read outside the memory of `g` -/
def cell {X V : Type*} (W : X → Prop) [DecidablePred W] (f : X → V) (x : X) : Option V := if W x then some (f x) else none

/-! ## Local functions -/

variable {o : Type} {F : Type} [Field F]

/-- the Green's function as `g(ν)` gives it, component by component -/
def ev1 (N : ℕ) (rule : (ℤ → F) → ℤ → F) (g : FreqConv.G1 o F) : FreqConv.G1 o F := fun x a b =>
  ev (InF N) rule (fun y => g y a b) x

/-- `chi0_from_gg2_PH(g, g2)`, `/repo/c++/triqs_tprf/chi_from_gg2.cpp:44-52`, `g` with `2 N` frequencies -/
def chi0PH (N : ℕ) (rule : (ℤ → F) → ℤ → F) (beta : F) (g : FreqConv.G1 o F) : FreqConv.G3 o F :=
  FreqConv.chi0PH beta (ev1 N rule g)

/-- `chi0_from_gg2_PP(g, g2)`, `/repo/c++/triqs_tprf/chi_from_gg2.cpp:81-89` -/
def chi0PP (N : ℕ) (rule : (ℤ → F) → ℤ → F) (beta : F) (g : FreqConv.G1 o F) : FreqConv.G3 o F :=
  FreqConv.chi0PP beta (ev1 N rule g)

/-- points of a mesh of three fermionic frequencies -/
def InF3 (N : ℕ) (x : ℤ × ℤ × ℤ) : Prop := InF N x.1 ∧ InF N x.2.1 ∧ InF N x.2.2

instance (N : ℕ) : DecidablePred (InF3 N) := fun x =>
  inferInstanceAs (Decidable (InF N x.1 ∧ InF N x.2.1 ∧ InF N x.2.2))

/-- points of the mesh of the result: one bosonic and two fermionic frequencies -/
def InCh (nw nn : ℕ) (x : ℤ × ℤ × ℤ) : Prop := InB nw x.1 ∧ InF nn x.2.1 ∧ InF nn x.2.2

/-- a two-particle Green's function of three fermionic frequencies as `g2(ν1, ν2, ν3)` gives it -/
def ev3 (N : ℕ) (rule : (ℤ × ℤ × ℤ → FreqConv.T4 o F) → ℤ × ℤ × ℤ → FreqConv.T4 o F) (g2 : FreqConv.G3 o F) :
    FreqConv.G3 o F := fun a b c => ev (InF3 N) rule (fun x => g2 x.1 x.2.1 x.2.2) (a, b, c)

/-! ## Lattice functions -/

variable {d : ℕ} {n : Fin d → ℕ} [∀ i, NeZero (n i)] [Fintype o] [DecidableEq o]

/-- a Green's function with `2 N` frequencies on a lattice, with the rule for other frequencies; the routines to and from
imaginary time are not used here. -/
def lattice (N : ℕ) (rule : (ℤ → ℂ) → ℤ → ℂ) (ranks : ℕ) (lat : List (Lat n)) (beta : ℝ) (g : G n o) : Lattice n o where
  ranks := ranks
  lat := lat
  beta := beta
  freqs := (FMesh.mk beta .fermion N).indices
  g := g
  L := 0
  toTau := fun _ _ => 0
  four := fun _ _ => 0
  ext := ev (InF N) rule

/-- `get_chi0_wnk(g_wk, nw, nwf)`, `/repo/python/triqs_tprf/bse.py:156-251`, with `nwf = len(fmesh) // 2` if it is not given
(lines 184-185) -/
def getChi0Wnk (p : Lattice n o) (nw : ℕ) (nwf : Option ℕ) : ℤ × ℤ → Lat n → Bubble.T4 o :=
  p.chi0Wnk nw (nwf.getD (p.freqs.length / 2))

/-- `get_chi0_nk_at_specific_w(g_wk, nw_index, nwf)`, `/repo/python/triqs_tprf/bse.py:256-309`, lines 281-282 for the default -/
def getChi0NkAt (p : Lattice n o) (w : ℤ) (nwf : Option ℕ) : Except String (ℤ → Lat n → Bubble.T4 o) :=
  p.chi0NkAt (nwf.getD (p.freqs.length / 2)) w

/-- the assertions of `solve_lattice_dbse` on the frequencies, `/repo/python/triqs_tprf/dbse.py:107-110`, for a vertex with
`nw` and `nn`, a Green's function with `N`, triangular vertices with `lw` and `ln` and an impurity susceptibility with `cw`
frequencies -/
def dbseAccepts (nw nn N lw ln cw : ℕ) : Bool :=
  decide (2 * nn ≤ 2 * N) && decide (2 * nw - 1 ≤ 2 * lw - 1) && decide (2 * nn ≤ 2 * ln) && decide (2 * nw - 1 ≤ 2 * cw - 1)

/-- `chi0_n_from_g_wk_PH`, `/repo/c++/triqs_tprf/lattice/chi_imfreq.cpp:254-282`: the first Green's function is read from the
memory (line 269), the second one is evaluated (line 270). -/
def chi0nFromGwk (N : ℕ) (rule : (ℤ → ℂ) → ℤ → ℂ) (beta : ℂ) (g : G n o) (w : ℤ) (q : Lat n) (nu : ℤ) :
    Option (Bubble.T4 o) :=
  (cell (InF N) g nu).map fun g1 => fun a b c d =>
    (∑ k, -(g1 k d a * ev (InF N) rule (fun y => g y (k - q) b c) (nu + w))) * (beta / Fintype.card (Lat n))

/-- the assertion of `chi0_n_from_e_k_sigma_w_PH`, `/repo/c++/triqs_tprf/lattice/chi_imfreq.cpp:298`: size of the fermionic mesh
of the result below that of the self energy -/
def sigmaAccepts (nn N : ℕ) : Bool := decide (2 * nn < 2 * N)

/-- `chi0_n_from_e_k_sigma_w_PH`, `/repo/c++/triqs_tprf/lattice/chi_imfreq.cpp:289-322`: both self energies are read from the
memory (lines 308 and 309). -/
def chi0nFromEkSigma (N : ℕ) (beta mu : ℂ) (iv : ℤ → ℂ) (e : Lat n → Matrix o o ℂ) (sigma : ℤ → Matrix o o ℂ)
    (w : ℤ) (q : Lat n) (nu : ℤ) : Option (Bubble.T4 o) :=
  match cell (InF N) sigma nu, cell (InF N) sigma (nu + w) with
  | some s1, some s2 => some fun a b c d =>
      (∑ k, -(((iv nu + mu) • (1 : Matrix o o ℂ) - e k - s1)⁻¹ d a
        * ((iv nu + mu) • (1 : Matrix o o ℂ) - e (k - q) - s2)⁻¹ b c)) * (beta / Fintype.card (Lat n))
  | _, _ => none

end Verif.Window
