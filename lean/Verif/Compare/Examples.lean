import Verif.Compare.Props
import Verif.Unique.Examples

/-!
# C134: cases that meet the hypotheses
-/

set_option linter.unusedSectionVars false

noncomputable section

namespace Verif.Compare

open Complex Matrix Verif.Fock Verif.Unique Verif.Subsystem Verif.Operators Verif.Fourier
open Verif.HartreeFock (State DensityOf EnergyOf meanField)
open Verif.HfResponse (wickEnergy)

open Verif.Mirror.Examples (hubbard)

variable {d : ℕ} {n : Fin d → ℕ} [∀ i, NeZero (n i)]

theorem atom_symm (U : ℝ) (a b c d : Fin 2) : atomTensor U c d a b = atomTensor U a b c d := by
  fin_cases a <;> fin_cases b <;> fin_cases c <;> fin_cases d <;> simp [atomTensor, permSym, set4]

theorem atom_field_hermitian (U f : ℝ) : ((0 : Matrix (Fin 2) (Fin 2) ℂ) + meanField (atomTensor U) ((f : ℂ) • 1)).IsHermitian := by
  rw [atom_mean', zero_add, Matrix.IsHermitian, Matrix.conjTranspose_smul, Matrix.conjTranspose_one, Complex.star_def, Complex.conj_ofReal]

theorem atom_hh (U beta x : ℝ) (k : Lat n) :
    ((fun _ : Lat n => (0 : Matrix (Fin 2) (Fin 2) ℂ)) k + meanField (atomTensor U) (atomState n U beta x).rho).IsHermitian :=
  atom_field_hermitian U (filling beta x)

/-- `C134_compare`: interacting atoms of any two interactions and fillings -/
example (U U' x x' : ℝ) {beta : ℝ} (hb : 0 < beta) :
    (atomState n U' beta x').omega.re - (atomState n U beta x).omega.re
      ≤ (U' - U) * filling beta x ^ 2 - ((x' + U' * filling beta x') - (x + U * filling beta x)) * (2 * filling beta x)
        - U' * (filling beta x' - filling beta x) ^ 2 := by
  refine (C134_compare hb (atom_symm U) (atom_symm U') (atom_hh U beta x) (atom_hh U' beta x')
    (atom_density (n := n) U beta x) (atom_energy U x hb) (atom_density (n := n) U' beta x') (atom_energy U' x' hb)).2.trans (le_of_eq ?_)
  have w : ∀ V f : ℝ, (wickEnergy (atomTensor V) ((f : ℂ) • 1)).re = V * f ^ 2 := by
    intro V f
    rw [wick_re, atom_mean', smul_mul_smul_comm, one_mul, Matrix.trace_smul, Matrix.trace_one, ← Complex.ofReal_mul, smul_eq_mul,
      Complex.re_ofReal_mul]
    simp
    ring
  have e1 : (wickEnergy (fun a b c d => atomTensor U' a b c d - atomTensor U a b c d) (atomState n U beta x).rho).re
      = (U' - U) * filling beta x ^ 2 := by
    rw [wick_re, meanField_diff, Matrix.sub_mul, Matrix.trace_sub, Complex.sub_re, mul_sub, ← wick_re, ← wick_re]
    change (wickEnergy (atomTensor U') ((filling beta x : ℂ) • 1)).re - (wickEnergy (atomTensor U) ((filling beta x : ℂ) • 1)).re = _
    rw [w, w]
    ring
  have e2 : (wickEnergy (atomTensor U') ((atomState n U' beta x').rho - (atomState n U beta x).rho)).re
      = U' * (filling beta x' - filling beta x) ^ 2 := by
    rw [← w]
    congr 2
    change (filling beta x' : ℂ) • (1 : Matrix (Fin 2) (Fin 2) ℂ) - (filling beta x : ℂ) • 1 = _
    push_cast
    rw [sub_smul]
  unfold change
  rw [e1, e2]
  simp [atomState]

theorem atom_hubbard (u : ℝ) : atomTensor u = hubbard u := by
  funext a b c d
  fin_cases a <;> fin_cases b <;> fin_cases c <;> fin_cases d <;> simp [atomTensor, permSym, set4, hubbard] <;> ring

theorem atom_scale (u l : ℝ) : (fun a b c d => (l : ℂ) * atomTensor u a b c d) = atomTensor (l * u) := by
  funext a b c d
  rw [atom_hubbard, atom_hubbard]
  unfold hubbard
  split_ifs <;> push_cast <;> ring

/-- `C134_coupling_number`: interacting atoms at a fixed filling -/
example (u x l0 : ℝ) {beta : ℝ} (hb : 0 < beta) (hq : beta * (|l0| * |u|) < 4) :
    HasDerivAt (fun l : ℝ => (atomState n (l * u) beta x).omega.re + (atomState n (l * u) beta x).mu * (atomState n (l * u) beta x).ntot.re)
      (wickEnergy (atomTensor u) (atomState n (l0 * u) beta x).rho).re l0 := by
  refine C134_coupling_number (κ := Lat n) (ek := fun _ => 0) hb (by rw [atom_hubbard]; exact hubbard_bounded u) (atom_symm u)
    (fun k => Matrix.isHermitian_zero) (fun l => atomState n (l * u) beta x) (fun l => ?_) (fun l => ?_) (fun l => ?_) hq fun l => rfl
  · change ((filling beta x : ℂ) • (1 : Matrix (Fin 2) (Fin 2) ℂ)).IsHermitian
    rw [Matrix.IsHermitian, Matrix.conjTranspose_smul, Matrix.conjTranspose_one, Complex.star_def, Complex.conj_ofReal]
  · rw [atom_scale]
    exact atom_density (l * u) beta x
  · rw [atom_scale]
    exact atom_energy (l * u) x hb

/-- `C134_filling`: the Hubbard site -/
example (beta u mu mu' : ℝ) (hb : 0 < beta) (h : beta * |u| < 4) (hm : mu ≤ mu') (rho rho' : Matrix (Fin 2) (Fin 2) ℂ)
    (hr : rho.IsHermitian) (hr' : rho'.IsHermitian) (hs : Solution (hubbard u) beta mu (fun _ : Unit => 0) rho)
    (hs' : Solution (hubbard u) beta mu' (fun _ : Unit => 0) rho') : (trace rho).re ≤ (trace rho').re :=
  (C134_filling hb (hubbard_bounded u) h (fun k => by rw [zero_add]; exact ((hubbard_bounded u).2 rho hr).1)
    (fun k => by rw [zero_add]; exact ((hubbard_bounded u).2 rho' hr').1) hs hs').2.1 hm

theorem level_exists (beta v mu : ℝ) : ∃ x, x + v * filling beta x = mu := by
  have hf : ∀ x, |v * filling beta x| ≤ |v| := by
    intro x
    rw [abs_mul]
    refine mul_le_of_le_one_right (abs_nonneg v) ?_
    unfold filling HartreeFock.fermi
    have := Real.exp_pos (beta * -x)
    rw [abs_of_pos (by positivity), div_le_one (by positivity)]
    linarith
  have hcont : Continuous fun x => x + v * filling beta x := by
    have : Continuous (filling beta) := by
      unfold filling HartreeFock.fermi
      refine Continuous.div (by fun_prop) (by fun_prop) fun x => ?_
      have := Real.exp_pos (beta * -x)
      positivity
    fun_prop
  refine hcont.surjective ?_ ?_ mu
  · refine Filter.tendsto_atTop_mono (f := fun x => x + -|v|) (fun x => ?_) (Filter.tendsto_atTop_add_const_right _ _ Filter.tendsto_id)
    have := (abs_le.1 (hf x)).1
    linarith
  · refine Filter.tendsto_atBot_mono (f := fun x => x + |v|) (fun x => ?_) (Filter.tendsto_atBot_add_const_right _ _ Filter.tendsto_id)
    have := (abs_le.1 (hf x)).2
    linarith

/-- `C134_coupling`, `C134_integration`: interacting atoms at a fixed chemical potential -/
example (u mu L : ℝ) {beta : ℝ} (hb : 0 < beta) (hL : 0 ≤ L) (hq : beta * (L * |u|) < 4) :
    ∃ x : ℝ → ℝ, (∀ l, (atomState n (l * u) beta (x l)).mu = mu) ∧
      ((atomState n (L * u) beta (x L)).omega - (atomState n (0 * u) beta (x 0)).omega).re
        = ∫ l in (0 : ℝ)..L, (wickEnergy (atomTensor u) (atomState n (l * u) beta (x l)).rho).re := by
  choose x hx using fun l : ℝ => level_exists beta (l * u) mu
  refine ⟨x, hx, C134_integration (κ := Lat n) (ek := fun _ => 0) hb (by rw [atom_hubbard]; exact hubbard_bounded u) (atom_symm u)
    (fun k => Matrix.isHermitian_zero) (fun l => atomState n (l * u) beta (x l)) (fun l => ?_) (fun l => ?_) (fun l => ?_) hL hq
    fun l l' => (hx l).trans (hx l').symm⟩
  · change ((filling beta (x l) : ℂ) • (1 : Matrix (Fin 2) (Fin 2) ℂ)).IsHermitian
    rw [Matrix.IsHermitian, Matrix.conjTranspose_smul, Matrix.conjTranspose_one, Complex.star_def, Complex.conj_ofReal]
  · rw [atom_scale]
    exact atom_density (l * u) beta (x l)
  · rw [atom_scale]
    exact atom_energy (l * u) (x l) hb

end Verif.Compare
