import Verif.Fock.Thermo

/-!
# C121: half filled Hubbard atoms on a lattice, and the entropy from the reported energies
-/

noncomputable section

set_option linter.unusedSectionVars false

namespace Verif.Fock

open NormedSpace Matrix Verif.Fourier Verif.Operators
open Verif.HartreeFock (State Params DensityOf EnergyOf meanField)

variable {d : ℕ} {n : Fin d → ℕ} [∀ i, NeZero (n i)]

/-- the tensor that `get_rpa_tensor` reads from `U n_up n_down` -/
def atomTensor (U : ℝ) : T4 2 := fun a b c d => 4 * permSym (set4 (fun _ _ _ _ => 0) 0 1 1 0 (U : ℂ)) b d a c

/-- solver for isolated Hubbard atoms on a lattice -/
def atomSolver (n : Fin d → ℕ) (V : Type) (U beta : ℝ) (m2v : Matrix (Fin 2) (Fin 2) ℂ → V)
    (v2m : V → Matrix (Fin 2) (Fin 2) ℂ) (eig : Lindhard.Eig (Fin 2)) (brentq : HartreeFock.Brentq) :
    Params 2 (Lat n) V :=
  { beta := beta, muMin := none, muMax := none, ek := fun _ => 0, U := atomTensor U, mat2vec := m2v, vec2mat := v2m,
    eigv := eig, eig := eig, brentq := brentq }

/-- half filled atoms without magnetic moment -/
def halfState (n : Fin d → ℕ) (U beta : ℝ) : State 2 (Lat n) :=
  { mu := U / 2, M := ((U / 2 : ℝ) : ℂ) • 1, ekMF := fun _ => ((U / 2 : ℝ) : ℂ) • 1, rhok := fun _ => (1 / 2 : ℂ) • 1,
    rho := (1 / 2 : ℂ) • 1, ntot := 1, ekin := 0, eint := -((U / 4 : ℝ) : ℂ), etot := -((U / 4 : ℝ) : ℂ),
    omega0 := -(2 / beta) * Real.log 2, omega := ((-(2 / beta) * Real.log 2 : ℝ) : ℂ) + -((U / 4 : ℝ) : ℂ) }

theorem atom_mean (U : ℝ) : meanField (atomTensor U) ((1 / 2 : ℂ) • 1) = ((U / 2 : ℝ) : ℂ) • 1 := by
  ext a b
  simp only [meanField, atomTensor, Fin.sum_univ_two, Matrix.smul_apply, smul_eq_mul]
  fin_cases a <;> fin_cases b <;> simp [permSym, set4] <;> ring

theorem half_density (U beta : ℝ) : DensityOf (atomTensor U) beta (fun _ : Lat n => 0) ((1 / 2 : ℂ) • 1)
    (halfState n U beta) where
  mean := (atom_mean U).symm
  bands k := by simp [halfState]
  rhok k := by
    have : (((U / 2 : ℝ) : ℂ) • 1 - ((U / 2 : ℝ) : ℂ) • 1 : Matrix (Fin 2) (Fin 2) ℂ) = 0 := sub_self _
    change _ = HfResponse.fermiMatrix beta (((U / 2 : ℝ) : ℂ) • 1 - ((U / 2 : ℝ) : ℂ) • 1)
    rw [this, HfResponse.fermiMatrix, smul_zero, exp_zero]
    refine (Matrix.inv_eq_right_inv ?_).symm
    change ((1 : Matrix (Fin 2) (Fin 2) ℂ) + 1) * ((1 / 2 : ℂ) • 1) = 1
    rw [mul_smul_comm, mul_one, ← two_smul ℂ, smul_smul]
    norm_num
  rho := by
    change (1 / 2 : ℂ) • (1 : Matrix (Fin 2) (Fin 2) ℂ) = (Fintype.card (Lat n) : ℂ)⁻¹ • ∑ k : Lat n, (1 / 2 : ℂ) • 1
    rw [Finset.sum_const, Finset.card_univ, ← Nat.cast_smul_eq_nsmul ℂ, smul_smul, inv_mul_cancel₀ card_ne_zero',
      one_smul]
  number := by
    simp [halfState]

theorem half_energy (U : ℝ) {beta : ℝ} (hb : 0 < beta) : EnergyOf (atomTensor U) beta (fun _ : Lat n => 0)
    (halfState n U beta) where
  kinetic := by simp [halfState]
  interaction := by
    simp only [halfState, atomTensor, Fin.sum_univ_two, Matrix.smul_apply, smul_eq_mul]
    simp [permSym, set4]
    ring
  total := by simp [halfState]
  omega0 := by
    have h0 : ∀ k : Lat n, Matrix.det (1 + exp ((beta : ℂ) • -((halfState n U beta).ekMF k
        - ((halfState n U beta).mu : ℂ) • 1))) = 4 := by
      intro k
      have : (halfState n U beta).ekMF k - ((halfState n U beta).mu : ℂ) • 1 = 0 := sub_self _
      rw [this, neg_zero, smul_zero, exp_zero, Matrix.det_fin_two]
      simp
      norm_num
    simp only [h0, Finset.prod_const, Finset.card_univ]
    have : -beta * (Fintype.card (Lat n) : ℝ) * (halfState n U beta).omega0 = (Fintype.card (Lat n) : ℝ) * Real.log 4 := by
      have h4 : Real.log 4 = 2 * Real.log 2 := by
        rw [show (4 : ℝ) = 2 ^ 2 by norm_num, Real.log_pow]; norm_num
      rw [h4]
      simp only [halfState]
      field_simp
    rw [this, mul_comm, Real.exp_mul, Real.exp_log (by norm_num)]
    rw [Real.rpow_natCast]
    push_cast
    rfl
  omega := rfl

theorem half_hermitian (U beta : ℝ) : (halfState n U beta).rho.IsHermitian := by
  change ((1 / 2 : ℂ) • (1 : Matrix (Fin 2) (Fin 2) ℂ)).IsHermitian
  rw [Matrix.IsHermitian, Matrix.conjTranspose_smul, Matrix.conjTranspose_one]
  simp

/-- the interaction `U n_up n_down` meets the hypotheses on the operator -/
theorem atom_operator (U : ℝ) (hU : U ≠ 0) :
    Canonical (Finsupp.single FitDlr.atomMono (U : ℂ)) ∧
    dagger (Finsupp.single FitDlr.atomMono (U : ℂ)) = Finsupp.single FitDlr.atomMono (U : ℂ) ∧
    (∀ m ∈ (Finsupp.single FitDlr.atomMono (U : ℂ)).support, IsQuartic [(0 : Fin 2), 1] m) ∧
    Enumerates [(FitDlr.atomMono, (U : ℂ))] (Finsupp.single FitDlr.atomMono (U : ℂ)) ∧
    getRpaTensor [(0 : Fin 2), 1] [(FitDlr.atomMono, (U : ℂ))] = .ok (atomTensor U) := by
  have hU' : (U : ℂ) ≠ 0 := by exact_mod_cast hU
  have hC : Canonical (Finsupp.single FitDlr.atomMono (U : ℂ)) := by
    intro m hm
    have := Finsupp.support_single_subset hm
    rw [Finset.mem_singleton] at this
    subst this
    decide
  refine ⟨hC, ?_, ?_, ?_, rfl⟩
  · have h1 : daggerMono FitDlr.atomMono = FitDlr.atomMono := by decide
    unfold dagger
    rw [Finsupp.sum_single_index (by simp), h1, nf_sorted _ (by decide)]
    simp
  · intro m hm
    have := Finsupp.support_single_subset hm
    rw [Finset.mem_singleton] at this
    subst this
    unfold IsQuartic
    decide
  · refine ⟨by simp, fun m a => ?_⟩
    simp only [List.mem_singleton, Prod.mk.injEq]
    constructor
    · rintro ⟨rfl, rfl⟩
      exact ⟨hU', by simp⟩
    · rintro ⟨ha, rfl⟩
      rw [Finsupp.single_apply] at ha ⊢
      split_ifs at ha ⊢ with h
      · exact ⟨h.symm, rfl⟩
      · exact absurd rfl ha

/-- The hypotheses of `C121_self_consistent` are met by the half filled Hubbard atoms on every lattice, for every
interaction and temperature. -/
example (U beta : ℝ) (hU : U ≠ 0) (hb : 0 < beta) : ∃ (s : Type) (_ : Fintype s) (_ : DecidableEq s)
    (c : Lat n × Fin 2 → Matrix s s ℂ), Fermions c ∧
    grand n beta (hamiltonian [(0 : Fin 2), 1] (Finsupp.single FitDlr.atomMono (U : ℂ)) c (U / 2) fun _ => 0)
      ≤ -(2 / beta) * Real.log 2 - U / 4 := by
  obtain ⟨s, _, _, c, hc, hcard⟩ := exists_fermions (Lat n × Fin 2)
  obtain ⟨eig, hs⟩ := Lindhard.exists_eigSpec (o := Fin 2)
  obtain ⟨h1, h2, h3, h4, h5⟩ := atom_operator U hU
  refine ⟨s, _, _, c, hc, ?_⟩
  have hcard' : Fintype.card s = 2 ^ (2 * Fintype.card (Lat n)) := by
    rw [hcard, Nat.card_eq_fintype_card, Fintype.card_prod, Fintype.card_fin, mul_comm]
  have : Nonempty s := Fintype.card_pos_iff.1 (by rw [hcard']; positivity)
  have h := C121_self_consistent (fs := [(0 : Fin 2), 1]) (by decide) h1 h2 h3 h4
    (atomSolver n Unit U beta (fun _ => ()) (fun _ => 0) eig fun _ _ _ => .error "") h5 hb hs hs
    (fun _ => Matrix.isHermitian_zero) hc hcard' (halfState n U beta) (half_hermitian U beta) (half_density U beta)
    (half_energy U hb)
  refine h.trans (le_of_eq ?_)
  change (((-(2 / beta) * Real.log 2 : ℝ) : ℂ) + -((U / 4 : ℝ) : ℂ)).re = _
  rw [Complex.add_re, Complex.neg_re, Complex.ofReal_re, Complex.ofReal_re]
  ring

/-- The hypotheses of `C121_entropy` are met as well: the entropy of a half filled atom is `2 log 2`. -/
example (U beta : ℝ) (hb : 0 < beta) {eig : Lindhard.Eig (Fin 2)} (hs : Lindhard.EigSpec eig) :
    (∑ _k : Lat n, ∑ b, Real.binEntropy (HartreeFock.fermi beta ((eig (((U / 2 : ℝ) : ℂ) • 1)).1 b - U / 2)))
      / Fintype.card (Lat n) = 2 * Real.log 2 := by
  have e : (0 : Matrix (Fin 2) (Fin 2) ℂ) + meanField (atomTensor U) (halfState n U beta).rho
      = ((U / 2 : ℝ) : ℂ) • 1 := by
    rw [zero_add]; exact atom_mean U
  have hh : ((0 : Matrix (Fin 2) (Fin 2) ℂ) + meanField (atomTensor U) (halfState n U beta).rho).IsHermitian := by
    rw [e, Matrix.IsHermitian, Matrix.conjTranspose_smul, Matrix.conjTranspose_one, Complex.star_def,
      Complex.conj_ofReal]
  have h := C121_entropy (atomSolver n Unit U beta (fun _ => ()) (fun _ => 0) eig fun _ _ _ => .error "") hb hs hs
    (halfState n U beta) (fun _ => hh) (half_density U beta) (half_energy U hb)
  simp only [atomSolver, e] at h
  simp only [halfState] at h
  have h' := congrArg Complex.re h
  simp only [Complex.add_re, Complex.sub_re, Complex.neg_re, Complex.ofReal_re, mul_one, Complex.zero_re] at h'
  have hb' := hb.ne'
  generalize (∑ _k : Lat n, ∑ b, Real.binEntropy (HartreeFock.fermi beta ((eig (((U / 2 : ℝ) : ℂ) • 1)).1 b - U / 2)))
    / (Fintype.card (Lat n) : ℝ) = S at h' ⊢
  field_simp at h'
  linarith

/-- The hypotheses of `C121_expectation` are met by the half filled atoms: the occupation of the first orbital. -/
example (U beta : ℝ) (R : Lat n) : ∃ (s : Type) (_ : Fintype s) (_ : DecidableEq s)
    (c : Lat n × Fin 2 → Matrix s s ℂ), Fermions c ∧
    thermal beta (oneBody [(0 : Fin 2), 1] c (fun _ => 0 + meanField (atomTensor U) ((1 / 2 : ℂ) • 1))
      - ((halfState n U beta).mu : ℂ) • number [(0 : Fin 2), 1] c) ((c (R, 0))ᴴ * c (R, 0)) = 1 / 2 := by
  obtain ⟨s, _, _, c, hc, hcard⟩ := exists_fermions (Lat n × Fin 2)
  have hne : Nonempty s := by
    rw [← Fintype.card_pos_iff, hcard]; positivity
  refine ⟨s, _, _, c, hc, ?_⟩
  have h := (C121_expectation (fs := [(0 : Fin 2), 1]) (by simp) hc (atomTensor U) beta (fun _ : Lat n => 0)
    ((1 / 2 : ℂ) • 1) (halfState n U beta) (half_density U beta) (fun k => by
      rw [zero_add]
      change (meanField (atomTensor U) ((1 / 2 : ℂ) • 1)).IsHermitian
      rw [atom_mean, Matrix.IsHermitian, Matrix.conjTranspose_smul, Matrix.conjTranspose_one,
        Complex.star_def, Complex.conj_ofReal]) R (Matrix.of fun a b => if a = 0 ∧ b = 0 then 1 else 0)).1
  have e1 : (∑ a : Fin 2, ∑ b : Fin 2, (Matrix.of (fun a b : Fin 2 => if a = 0 ∧ b = 0 then (1 : ℂ) else 0)) a b •
      ((c (R, [(0 : Fin 2), 1].get a))ᴴ * c (R, [(0 : Fin 2), 1].get b))) = (c (R, 0))ᴴ * c (R, 0) := by
    simp [Fin.sum_univ_two]
  have e2 : HartreeFock.expectationValue (n := 2) (Matrix.of fun a b => if a = 0 ∧ b = 0 then 1 else 0)
      (halfState n U beta).rho = 1 / 2 := by
    simp [HartreeFock.expectationValue, halfState, Fin.sum_univ_two]
  exact (congrArg _ e1.symm).trans (h.trans e2)

/-- C121 (entropy) is violated for the reported energies: a solver state with consistent density and energies for
which `E_tot - mu N_tot - Omega`, the temperature times the entropy, is negative. -/
theorem C121_entropy_violated : ∃ (p : Params 2 (Lat n) Unit) (st : State 2 (Lat n)), 0 < p.beta ∧
    Lindhard.EigSpec p.eig ∧ Lindhard.EigSpec p.eigv ∧
    getRpaTensor [(0 : Fin 2), 1] [(FitDlr.atomMono, (4 : ℂ))] = .ok p.U ∧
    DensityOf p.U p.beta p.ek st.rho st ∧ EnergyOf p.U p.beta p.ek st ∧
    (st.etot - st.mu * st.ntot - st.omega).re < 0 := by
  obtain ⟨eig, hs⟩ := Lindhard.exists_eigSpec (o := Fin 2)
  obtain ⟨-, -, -, -, h5⟩ := atom_operator 4 (by norm_num)
  refine ⟨atomSolver n Unit 4 1 (fun _ => ()) (fun _ => 0) eig fun _ _ _ => .error "", halfState n 4 1, one_pos, hs, hs,
    by rw [← Complex.ofReal_ofNat]; exact h5, half_density 4 1, half_energy 4 one_pos, ?_⟩
  have h : ((halfState n 4 1).etot - (halfState n 4 1).mu * (halfState n 4 1).ntot - (halfState n 4 1).omega)
      = ((2 * Real.log 2 - 2 : ℝ) : ℂ) := by
    simp only [halfState]
    push_cast
    ring
  rw [h, Complex.ofReal_re]
  have := Real.log_two_lt_d9
  linarith

end Verif.Fock
