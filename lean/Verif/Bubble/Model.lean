import Verif.Fourier.Model
import Mathlib.LinearAlgebra.Matrix.NonsingularInverse
import Mathlib.Data.Complex.BigOperators

/-!
# Particle-hole bubbles

Model of the bubble routines in `/repo/c++/triqs_tprf/lattice/chi_imfreq.cpp:63-485`,
`/repo/c++/triqs_tprf/lattice/chi_imtime.cpp:38-277` and `/repo/c++/triqs_tprf/lattice/chi_retime.cpp:95-122`.

Frequencies are integer indices, momenta and lattice vectors are points of `Lat n`.  Green's functions are
taken on all frequencies: the window of the mesh of `g` and evaluation outside of it are not modelled.
-/

noncomputable section

namespace Verif.Bubble

open Complex Verif.Parallel Verif.Fourier

variable {d : ℕ} {n : Fin d → ℕ} [∀ i, NeZero (n i)] {o : Type*} [Fintype o] [DecidableEq o]

abbrev T4 (o : Type*) := o → o → o → o → ℂ

/-- Green's function `g(ν, x)_{ab}`, `x` a momentum or a lattice vector -/
abbrev G (n : Fin d → ℕ) (o : Type*) := ℤ → Lat n → o → o → ℂ

/-! ## Matsubara frequencies -/

/-- `-beta * g_pr_n(n)(d, a) * g_mr_n(n + w)(b, c)`, with `g_pr = g_nr[_, r]`, `g_mr = g_nr(_, -r)`,
`/repo/c++/triqs_tprf/lattice/chi_imfreq.cpp:102-111`. -/
def chi0rPoint (beta : ℂ) (g : G n o) (r : Lat n) (w nu : ℤ) : T4 o := fun a b c d =>
  -beta * g nu r d a * g (nu + w) (-r) b c

/-- `chi0r_from_gr_PH`, `/repo/c++/triqs_tprf/lattice/chi_imfreq.cpp:63-139`. -/
def chi0rFromGr (ranks : ℕ) (beta : ℂ) (rmesh : List (Lat n)) (g : G n o) :
    Lat n → ℤ → ℤ → T4 o :=
  distributedAssign ranks rmesh fun r => chi0rPoint beta g r

/-- `chi0_nr_from_gr_PH_at_specific_w`, `/repo/c++/triqs_tprf/lattice/chi_imfreq.cpp:141-182`. -/
def chi0rAtW (ranks : ℕ) (beta : ℂ) (rmesh : List (Lat n)) (g : G n o) (w : ℤ) :
    Lat n → ℤ → T4 o :=
  distributedAssign ranks rmesh fun r nu => chi0rPoint beta g r w nu

/-- `chi0r_from_gr_PH_nompi`, `/repo/c++/triqs_tprf/lattice/chi_imfreq.cpp:188-247`: every process does all
`r`. -/
def chi0rFromGrNompi (beta : ℂ) (rmesh : List (Lat n)) (g : G n o) : Lat n → ℤ → ℤ → T4 o :=
  rankAssign rmesh fun r => chi0rPoint beta g r

/-- `chi0q_from_chi0r`, `/repo/c++/triqs_tprf/lattice/chi_imfreq.cpp:428-485`: a transform for every pair of
frequencies. -/
def chi0qFromChi0r (ranks : ℕ) (wnmesh : List (ℤ × ℤ)) (chi : Lat n → ℤ → ℤ → T4 o) :
    ℤ × ℤ → Lat n → T4 o :=
  distributedAssign ranks wnmesh fun p => rToK fun r => chi r p.1 p.2

/-- `chi0r_from_chi0q`, `/repo/c++/triqs_tprf/lattice/chi_imfreq.cpp:365-407`. -/
def chi0rFromChi0q (ranks : ℕ) (wnmesh : List (ℤ × ℤ)) (chi : ℤ × ℤ → Lat n → T4 o) :
    ℤ × ℤ → Lat n → T4 o :=
  distributedAssign ranks wnmesh fun p => kToR (chi p)

/-- `chi0_n_from_g_wk_PH`, `/repo/c++/triqs_tprf/lattice/chi_imfreq.cpp:254-282` (also
`chi0q_from_g_wk_PH`, lines 326-342). -/
def chi0nFromGwk (beta : ℂ) (g : G n o) (w : ℤ) (q : Lat n) (nu : ℤ) : T4 o := fun a b c d =>
  (∑ k, -(g nu k d a * g (nu + w) (k - q) b c)) * (beta / Fintype.card (Lat n))

/-- `chi0_n_from_e_k_sigma_w_PH`, `/repo/c++/triqs_tprf/lattice/chi_imfreq.cpp:289-322`.  `iv` is the value of the
Matsubara frequency; both inverses use `n`, see lines 308 and 309. -/
def chi0nFromEkSigma (beta mu : ℂ) (iv : ℤ → ℂ) (e : Lat n → Matrix o o ℂ) (sigma : ℤ → Matrix o o ℂ)
    (w : ℤ) (q : Lat n) (nu : ℤ) : T4 o := fun a b c d =>
  (∑ k, -(((iv nu + mu) • (1 : Matrix o o ℂ) - e k - sigma nu)⁻¹ d a
    * ((iv nu + mu) • (1 : Matrix o o ℂ) - e (k - q) - sigma (nu + w))⁻¹ b c))
    * (beta / Fintype.card (Lat n))

/-! ## Imaginary time -/

/-- one point of the imaginary time bubble: `g_pr_t(t)(d, a) * g_mr_t(beta - t)(b, c)`,
`/repo/c++/triqs_tprf/lattice/chi_imtime.cpp:125`; on the uniform mesh `0..L` the time `β - t` has index
`L - t`. -/
def chi0tPoint (L : ℕ) (g : ℕ → Lat n → o → o → ℂ) (r : Lat n) (t : ℕ) : T4 o := fun a b c d =>
  g t r d a * g (L - t) (-r) b c

/-- `chi0_tr_from_grt_PH`, `/repo/c++/triqs_tprf/lattice/chi_imtime.cpp:88-136`. -/
def chi0tr (ranks L : ℕ) (rmesh : List (Lat n)) (g : ℕ → Lat n → o → o → ℂ) :
    Lat n → ℕ → T4 o :=
  distributedAssign ranks rmesh fun r => chi0tPoint L g r

/-- `chi_trapz_tau`, `/repo/c++/triqs_tprf/lattice/chi_imtime.cpp:230-247`, mesh of `L + 1` points. -/
def trapz {E : Type*} [AddCommGroup E] [Module ℂ E] (beta : ℂ) (L : ℕ) (chi : ℕ → E) : E :=
  (beta / L) • ((∑ t ∈ Finset.range (L + 1), chi t) - (1 / 2 : ℂ) • chi 0 - (1 / 2 : ℂ) • chi L)

/-- `chi_w0r_from_chi_tr`, `/repo/c++/triqs_tprf/lattice/chi_imtime.cpp:250-277`. -/
def chiW0rFromChiTr (ranks : ℕ) (beta : ℂ) (L : ℕ) (rmesh : List (Lat n)) (chi : Lat n → ℕ → T4 o) :
    Lat n → T4 o := distributedAssign ranks rmesh fun r => trapz beta L (chi r)

/-- `chi0_w0r_from_grt_PH`, `/repo/c++/triqs_tprf/lattice/chi_imtime.cpp:185-228`. -/
def chi0W0r (ranks : ℕ) (beta : ℂ) (L : ℕ) (rmesh : List (Lat n)) (g : ℕ → Lat n → o → o → ℂ) :
    Lat n → T4 o := distributedAssign ranks rmesh fun r => trapz beta L (chi0tPoint L g r)

/-! ## Real time -/

/-- one point of `chi0_Tr_from_g_Tr_PH`, `/repo/c++/triqs_tprf/lattice/chi_retime.cpp:95-122`. -/
def chi0Tr {T : Type*} (les gtr : T → Lat n → o → o → ℂ) (t : T) (r : Lat n) : T4 o := fun a b c d =>
  I * les t r d a * (starRingEnd ℂ) (gtr t (-r) b c) - I * gtr t r d a * (starRingEnd ℂ) (les t (-r) b c)

end Verif.Bubble
