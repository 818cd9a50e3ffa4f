import Verif.Mirror.Window
import Verif.Mirror.Hf

/-!
# C129: cases that meet the hypotheses
-/

set_option linter.unusedSectionVars false

noncomputable section

namespace Verif.Mirror.Examples

open Complex Matrix Verif.Parallel Verif.Fourier Verif.Bubble Verif.Gw Verif.Dyson

/-! ## A ring of four sites with two orbitals -/

abbrev Four : Fin 1 → ℕ := fun _ => 4

/-- a dispersion that is neither even in `k` nor symmetric -/
def bands (k : Lat Four) : Matrix (Fin 2) (Fin 2) ℂ := !![if k 0 = 1 then 1 else 0, I; -I, 2]

theorem bands_herm (k : Lat Four) : (bands k).IsHermitian := by
  unfold bands
  ext i j
  fin_cases i <;> fin_cases j <;> simp

theorem bands_moves : holeE Neg.neg bands (fun _ => 1) ≠ -bands (fun _ => 1) := by
  intro h
  have := congrFun (congrFun h 0) 0
  have h1 : ¬ ((-1 : ZMod 4) = 1) := by decide
  simp [holeE, bands, h1] at this

theorem complete_toList {d : ℕ} (n : Fin d → ℕ) [∀ i, NeZero (n i)] : Complete (Finset.univ : Finset (Lat n)).toList :=
  ⟨Finset.nodup_toList _, fun k => Finset.mem_toList.2 (Finset.mem_univ k)⟩

/-- a Matsubara mesh of four frequencies -/
def four : List ℤ := [-2, -1, 0, 1]

theorem four_neg (w : ℤ) : -w - 1 ∈ four ↔ w ∈ four := by
  simp only [four, List.mem_cons, List.not_mem_nil, or_false]
  omega

example (w : ℤ) (k : Lat Four) :
    latticeDysonG0Xk 3 (-(1 : ℂ)) (fun w => nuVal 2 w * I) four (Finset.univ : Finset (Lat Four)).toList (holeE Neg.neg bands) (w, k)
      = -(latticeDysonG0Xk 3 1 (fun w => nuVal 2 w * I) four (Finset.univ : Finset (Lat Four)).toList bands (-w - 1, -k))ᵀ :=
  (C129_dyson (nw := fun w => -w - 1) (by decide) 1 (fun w => by rw [nuVal_neg]; push_cast; ring)
    (prodMesh_nodup (by decide) (complete_toList Four).1) four_neg
    (fun k => by simp) bands (.local fun _ => 0) 0 w k).1

/-- the Lindhard function, away from zero frequency there is no condition on the levels -/
example {eig : Lindhard.Eig (Fin 2)} (hs : Lindhard.EigSpec eig) (q : Lat Four) :
    Lindhard.lindhard 3 eig (1 / 1000) 5 (-1) (Finset.univ : Finset (Lat Four)).toList (holeE Neg.neg bands) 2 q
      = hole4 (Lindhard.lindhard 3 eig (1 / 1000) 5 1 (Finset.univ : Finset (Lat Four)).toList bands 2 q) :=
  C129_lindhard (by decide) (by decide) hs hs _ _ _ (complete_toList Four) bands bands_herm 2
    (fun h => absurd h (by norm_num)) q

/-! ## A Hubbard site in mean field: its own holes -/

/-- `U n↑ n↓` as the tensor of the mean-field solvers -/
def hubbard (u : ℝ) : Operators.T4 2 := fun a b c d =>
  if a = b ∧ c = d ∧ a ≠ c then -u else if a = d ∧ b = c ∧ a ≠ b then u else 0

/-- level at `-U/2` -/
def site (u : ℝ) : Unit → Matrix (Fin 2) (Fin 2) ℂ := fun _ => Matrix.diagonal fun _ => ((-u / 2 : ℝ) : ℂ)

theorem hubbard_hole (u : ℝ) : hole4 (hubbard u) = hubbard u := by
  funext a b c d
  unfold hole4 hubbard
  fin_cases a <;> fin_cases b <;> fin_cases c <;> fin_cases d <;> simp

theorem site_hole (u : ℝ) : site u = holeBand (hubbard u) (Equiv.refl Unit) (site u) := by
  funext k
  ext a b
  fin_cases a <;> fin_cases b <;>
    simp [holeBand, site, HartreeFock.meanField, hubbard, Fin.sum_univ_two, Matrix.one_apply] <;> ring

/-- at `μ = 0` every density matrix of the half-filled site is a solution exactly if its mirror image is -/
example (u beta : ℝ) (rho : Matrix (Fin 2) (Fin 2) ℂ) (hh : (site u () + HartreeFock.meanField (hubbard u) rho).IsHermitian) :
    Subsystem.Solution (hubbard u) beta 0 (site u) (holeRho rho) ↔ Subsystem.Solution (hubbard u) beta 0 (site u) rho := by
  have h := C129_hf_solutions (nk := Equiv.refl Unit) (hubbard u) beta 0 (site u) rho fun _ => hh
  rw [hubbard_hole, neg_zero, ← site_hole] at h
  exact h

/-! ## The GW solver with plain Fourier sums -/

/-- Fourier sums over the frequencies of the mesh and the trapezoidal rule -/
def sums (beta : ℝ) (L N : ℕ) : Pieces where
  gToTau := sumToTau beta L N
  wToTau := sumToTauBose beta L N
  toFreq := trapzFreq beta L
  tail0 := fun x => x 0
  dens := sumDensity beta N
  ntau := fun _ => L + 1

/-- an interaction between the sites that depends on momentum: density-density, and a pair term -/
def inter (k : Lat Four) : Bubble.T4 (Fin 2) := fun a b c d =>
  if a = b ∧ c = d then (if k 0 = 0 then 2 else 1) else if a = d ∧ b = c then 3 else 0

theorem inter_exch (k : Lat Four) : inter k = Herm.exch (inter (-k)) := by
  funext a b c d
  have h0 : ((-k : Lat Four) 0 = 0) ↔ k 0 = 0 := neg_eq_zero
  unfold inter Herm.exch
  simp only [h0]
  fin_cases a <;> fin_cases b <;> fin_cases c <;> fin_cases d <;> simp

/-- a problem -/
def problem (beta : ℝ) : SolverParams Four (Fin 2) where
  ranks := 2
  lat := (Finset.univ : Finset (Lat Four)).toList
  freqs := four
  bfreqs := [-1, 0, 1]
  nw := 2
  beta := beta
  L := 6
  val := fun w => nuVal beta w * I
  pieces := sums beta 6 2
  boseFreq := trapzBose beta 6
  e := bands
  V := inter
  nFix := 0
  bracket := (0, 1)
  brentq := fun _ _ _ => .ok 0

/-- the problem of the holes -/
def holes (f : Flags) (beta : ℝ) : SolverParams Four (Fin 2) :=
  { problem beta with
    ranks := 5
    e := fun k => -(bands (-k) + (if f.hartree then fullHartree inter else 0) + (if f.fock then fullFock inter else 0))ᵀ
    V := fun k => hole4 (inter k) }

theorem problem_holes (f : Flags) {beta : ℝ} (hb : beta ≠ 0) : HoleGw f (outerMoment beta 2) (problem beta) (holes f beta) := by
  obtain ⟨h1, h2, h3, h4, h5⟩ := C129_sums hb (show 0 < 6 by decide) 2
  exact
    { good := ⟨show 0 < 2 by decide, complete_toList Four, show four.Nodup by decide, show [(-1 : ℤ), 0, 1].Nodup by decide⟩
      good' := ⟨show 0 < 5 by decide, complete_toList Four, show four.Nodup by decide, show [(-1 : ℤ), 0, 1].Nodup by decide⟩
      freqs := rfl, bfreqs := rfl, nw := rfl, L := rfl, beta := rfl, val := rfl, pieces := rfl, boseFreq := rfl
      nFix := rfl, nFix' := rfl
      e := fun _ => rfl
      V := fun _ => rfl
      exch := inter_exch
      valNeg := fun w => by
        change (nuVal beta (-w - 1) : ℂ) * I = -(nuVal beta w * I)
        rw [nuVal_neg]; push_cast; ring
      freqsNeg := four_neg
      bfreqsNeg := fun w => by
        change -w ∈ [-1, 0, 1] ↔ w ∈ [-1, 0, 1]
        simp only [List.mem_cons, List.not_mem_nil, or_false]
        omega
      gToTau := h1, wToTau := h2, toFreq := h3, bose := h4, dens := h5 }

/-- free electrons at zero energy -/
def start (beta : ℝ) : G Four (Fin 2) := fun w _ a b => if a = b then 1 / (nuVal beta w * I) else 0

theorem start_normal {beta : ℝ} (hb : beta ≠ 0) : Normal (outerMoment beta 2) (start beta) := by
  intro k a b
  unfold outerMoment start
  by_cases hab : a = b
  · simp only [if_pos hab]
    have h1 : nuVal beta (-((2 : ℕ) : ℤ)) = -nuVal beta (((2 : ℕ) : ℤ) - 1) := by
      rw [← nuVal_neg]; congr 1
    have h2 : (nuVal beta (((2 : ℕ) : ℤ) - 1) : ℂ) ≠ 0 := by
      have : nuVal beta (((2 : ℕ) : ℤ) - 1) ≠ 0 := by
        unfold nuVal
        refine div_ne_zero (mul_ne_zero ?_ Real.pi_ne_zero) hb
        norm_num
      exact_mod_cast this
    rw [h1]
    push_cast
    have hI := Complex.I_ne_zero
    push_cast at h2
    field_simp
    ring
  · simp [if_neg hab]

/-- one pass with all terms, for particles and for holes -/
example {beta : ℝ} (hb : beta ≠ 0) (mu : ℝ) : ∃ t t', (problem beta).sweep {} mu (start beta) = .ok t ∧
    (holes {} beta).sweep {} (-mu) (holeG (start beta)) = .ok t' ∧ t'.g = holeG t.g ∧ (∀ x, t'.W x = hole4 (t.W x)) := by
  have h1 : ∃ t, (problem beta).sweep {} mu (start beta) = .ok t := by
    unfold SolverParams.sweep SolverParams.dyson
    dsimp only
    rw [if_pos (show (problem beta).nFix = 0 from rfl)]
    exact ⟨_, rfl⟩
  have h2 : ∃ t, (holes {} beta).sweep {} (-mu) (holeG (start beta)) = .ok t := by
    unfold SolverParams.sweep SolverParams.dyson
    dsimp only
    rw [if_pos (show (holes {} beta).nFix = 0 from rfl)]
    exact ⟨_, rfl⟩
  obtain ⟨t, ht⟩ := h1
  obtain ⟨t', ht'⟩ := h2
  obtain ⟨-, h3, -, h4, -⟩ := C129_gw (problem_holes {} hb) (start_normal hb) mu ht ht'
  exact ⟨t, t', ht, ht', h3, h4⟩

/-- two orbitals, two electrons per site are two holes per site -/
example {beta : ℝ} (hb : beta ≠ 0) : totalDensity ((holes {} beta).rhoR (holeG (start beta)))
    = 2 - totalDensity ((problem beta).rhoR (start beta)) := by
  have := C129_gw_density (problem_holes {} hb) (start_normal hb)
  rwa [Fintype.card_fin] at this

end Verif.Mirror.Examples
