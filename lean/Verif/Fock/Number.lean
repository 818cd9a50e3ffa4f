import Verif.Fock.Examples
import Verif.HfResponse.Variational

/-!
# C121: derivatives of the reported grand potential along families of self-consistent solutions
-/

noncomputable section

set_option linter.unusedSectionVars false

open scoped Matrix.Norms.Operator

namespace Verif.Fock

open Matrix Filter Verif.Fourier Verif.Operators
open Verif.HartreeFock (State Params DensityOf EnergyOf meanField)
open Verif.HfResponse (fermiMatrix dFermi freeGrand)

variable {N : ℕ} {κ : Type} [Fintype κ] [Nonempty κ]

/-- derivative of the grand potential of free fermions along a curve of hermitian matrices -/
theorem freeGrand_curve {beta : ℝ} (hb : 0 < beta) {H : ℝ → Matrix (Fin N) (Fin N) ℂ}
    {H' : Matrix (Fin N) (Fin N) ℂ} {t : ℝ} (hH : ∀ s, (H s).IsHermitian) (hd : HasDerivAt H H' t) :
    HasDerivAt (fun s => freeGrand beta (H s)) (trace (fermiMatrix beta (H t) * H')).re t := by
  obtain ⟨r, hr, hdet⟩ := (HfResponse.freeGrand_eq beta (hH t)).2
  have h1 : HasDerivAt (fun s => fermiMatrix beta (H s)) (dFermi beta (H t) H') t :=
    ((HfResponse.hasFDerivAt_fermi beta (hH t)).restrictScalars ℝ).comp_hasDerivAt t hd
  have h2 : HasDerivAt (fun s : ℝ => 1 - fermiMatrix beta (H s)) (-(dFermi beta (H t) H')) t := h1.const_sub 1
  have hu : IsUnit (1 - fermiMatrix beta (H t)).det := by
    rw [hdet, isUnit_iff_ne_zero]
    exact_mod_cast hr.ne'
  have h3 := HfResponse.hasDerivAt_det (A := fun s : ℝ => 1 - fermiMatrix beta (H s)) hu h2
  have h4 : HasDerivAt (fun s : ℝ => (1 - fermiMatrix beta (H s)).det.re)
      (r * (beta * (trace (fermiMatrix beta (H t) * H')).re)) t := by
    have := Complex.reCLM.hasFDerivAt.comp_hasDerivAt t h3
    refine this.congr_deriv ?_
    rw [hdet, Matrix.mul_neg, Matrix.trace_neg, HfResponse.trace_one_sub beta (hH t)]
    simp
  have h5 := (h4.log (by rw [hdet]; exact_mod_cast hr.ne')).const_mul (1 / beta)
  refine (h5.congr_of_eventuallyEq (Eventually.of_forall fun s => ?_)).congr_deriv ?_
  · exact (HfResponse.freeGrand_eq beta (hH s)).1
  · rw [hdet, Complex.ofReal_re]
    field_simp

/-- the non-interacting part of the reported grand potential is the sum over the mean field bands -/
theorem omega0_freeGrand {U : T4 N} {beta : ℝ} (hb : 0 < beta) {ek : κ → Matrix (Fin N) (Fin N) ℂ}
    {st : State N κ} (he : EnergyOf U beta ek st) (hh : ∀ k, (st.ekMF k).IsHermitian) :
    st.omega0 = (∑ k, freeGrand beta (st.ekMF k - (st.mu : ℂ) • 1)) / Fintype.card κ := by
  have hK : (0 : ℝ) < Fintype.card κ := by exact_mod_cast Fintype.card_pos
  have hH : ∀ k, (st.ekMF k - (st.mu : ℂ) • 1).IsHermitian := fun k => (hh k).sub (by
    rw [Matrix.IsHermitian, Matrix.conjTranspose_smul, Matrix.conjTranspose_one, Complex.star_def, Complex.conj_ofReal])
  have hdet : ∀ k, Matrix.det (1 + NormedSpace.exp ((beta : ℂ) • -(st.ekMF k - (st.mu : ℂ) • 1)))
      = ((Real.exp (-beta * freeGrand beta (st.ekMF k - (st.mu : ℂ) • 1)) : ℝ) : ℂ) := by
    intro k
    obtain ⟨eig, hs⟩ := Lindhard.exists_eigSpec (o := Fin N)
    have hp : Lindhard.Diag (st.ekMF k - (st.mu : ℂ) • 1) (eig (st.ekMF k - (st.mu : ℂ) • 1)) := hs _ (hH k)
    rw [freeGrand]
    generalize st.ekMF k - (st.mu : ℂ) • 1 = H at hp ⊢
    generalize eig H = q at hp
    have e1 : (beta : ℂ) • -H = ((-beta : ℝ) : ℂ) • H := by
      rw [smul_neg, Complex.ofReal_neg, neg_smul]
    have e2 : Matrix.det (1 + NormedSpace.exp (((-beta : ℝ) : ℂ) • H))
        = ((∏ i, (1 + Real.exp (-beta * q.1 i)) : ℝ) : ℂ) := by
      have h1 : (q.2).det * (q.2ᴴ).det = 1 := by rw [← Matrix.det_mul, hp.2.1, Matrix.det_one]
      rw [HfResponse.exp_of_diag (-beta) hp, ← Lindhard.matFun_one hp, HfResponse.matFun_add, Lindhard.matFun,
        Matrix.det_mul, Matrix.det_mul, Matrix.det_diagonal, mul_right_comm, h1, one_mul]
      push_cast
      rfl
    have hpos : 0 < ∏ i, (1 + Real.exp (-beta * q.1 i)) := Finset.prod_pos fun i _ => by positivity
    rw [e1, e2, Complex.ofReal_re]
    congr 1
    rw [← mul_assoc, neg_mul_neg, mul_one_div_cancel hb.ne', one_mul, Real.exp_log hpos]
  have h := he.omega0
  simp only [hdet] at h
  rw [← Complex.ofReal_prod, ← Real.exp_sum, ← Finset.mul_sum] at h
  have h2 := Real.exp_injective (Complex.ofReal_injective h)
  rw [eq_div_iff hK.ne']
  have := mul_left_cancel₀ (neg_ne_zero.2 hb.ne') ((mul_assoc _ _ _).symm.trans h2)
  rw [← this, mul_comm]

/-- C121 (derivatives): along every differentiable family of self-consistent solutions, with bands `e(t)` and chemical
potential `mu(t)`, the reported `Omega` changes as `dOmega = <de> - N_tot dmu`: at fixed bands its derivative is minus the
reported number of particles, and the response to a change of the bands is the average with the reported density
matrices. -/
theorem C121_number (U : T4 N) (hU : ∀ a b c d, U c d a b = U a b c d) {beta : ℝ} (hb : 0 < beta)
    (ek : ℝ → κ → Matrix (Fin N) (Fin N) ℂ) (st : ℝ → State N κ)
    (hh : ∀ s k, (ek s k + meanField U (st s).rho).IsHermitian)
    (hd : ∀ s, DensityOf U beta (ek s) (st s).rho (st s)) (he : ∀ s, EnergyOf U beta (ek s) (st s)) (t : ℝ)
    (ek' : κ → Matrix (Fin N) (Fin N) ℂ) (mu' : ℝ) (rho' : Matrix (Fin N) (Fin N) ℂ)
    (h1 : ∀ k a b, HasDerivAt (fun s => ek s k a b) (ek' k a b) t) (h2 : HasDerivAt (fun s => (st s).mu) mu' t)
    (h3 : ∀ a b, HasDerivAt (fun s => (st s).rho a b) (rho' a b) t) :
    HasDerivAt (fun s => (st s).omega.re)
      (((∑ k, trace (ek' k * (st t).rhok k)).re) / Fintype.card κ - (st t).ntot.re * mu') t := by
  have hek : ∀ s k, (st s).ekMF k = ek s k + meanField U (st s).rho := fun s k => by
    rw [(hd s).bands, (hd s).mean]
  have hρ : HasDerivAt (fun s => (st s).rho) rho' t := HfResponse.hasDerivAt_matrix h3
  have hM := HfResponse.meanField_hasDerivAt U hρ
  have hμ : HasDerivAt (fun s => ((st s).mu : ℂ) • (1 : Matrix (Fin N) (Fin N) ℂ)) ((mu' : ℂ) • 1) t :=
    (h2.ofReal_comp).smul_const _
  have hherm : ∀ s k, ((st s).ekMF k).IsHermitian := fun s k => by rw [hek]; exact hh s k
  have hH : ∀ k s, (ek s k + meanField U (st s).rho - ((st s).mu : ℂ) • 1).IsHermitian := fun k s =>
    (hh s k).sub (by
      rw [Matrix.IsHermitian, Matrix.conjTranspose_smul, Matrix.conjTranspose_one, Complex.star_def,
        Complex.conj_ofReal])
  have hfree : ∀ k, HasDerivAt (fun s => freeGrand beta (ek s k + meanField U (st s).rho - ((st s).mu : ℂ) • 1))
      (trace ((st t).rhok k * (ek' k + meanField U rho' - (mu' : ℂ) • 1))).re t := by
    intro k
    have h := freeGrand_curve hb (hH k)
      (((HfResponse.hasDerivAt_matrix (h1 k)).add hM).sub hμ)
    rw [(hd t).rhok, hek]
    exact h
  have hint : HasDerivAt (fun s => -(1 / 2) * (trace (meanField U (st s).rho * (st s).rho)).re)
      (-(trace (meanField U rho' * (st t).rho)).re) t := by
    have h := (HfResponse.trace_hasDerivAt (hM.mul hρ)).const_mul (-(1 / 2 : ℝ))
    refine h.congr_deriv ?_
    rw [Matrix.trace_add, HfResponse.meanField_symm U hU (st t).rho rho', Complex.add_re]
    ring
  have homega : (fun s => (st s).omega.re) = fun s =>
      (∑ k, freeGrand beta (ek s k + meanField U (st s).rho - ((st s).mu : ℂ) • 1)) / Fintype.card κ
        + -(1 / 2) * (trace (meanField U (st s).rho * (st s).rho)).re := by
    funext s
    rw [(he s).omega, Complex.add_re, Complex.ofReal_re, omega0_freeGrand hb (he s) (hherm s)]
    simp only [hek]
    congr 1
    have e1 : (st s).eint = -(1 / 2) * trace (meanField U (st s).rho * (st s).rho) := by
      rw [← HartreeFock.C47_energy]; exact (he s).interaction
    have e2 : (-(1 / 2) : ℂ) = ((-(1 / 2) : ℝ) : ℂ) := by push_cast; rfl
    rw [e1, e2, Complex.re_ofReal_mul]
  rw [homega]
  refine (((HasDerivAt.fun_sum (u := Finset.univ) fun k _ => hfree k).div_const (Fintype.card κ : ℝ)).add hint).congr_deriv ?_
  have hK : (Fintype.card κ : ℝ) ≠ 0 := by exact_mod_cast Fintype.card_ne_zero
  have hK' : (Fintype.card κ : ℂ) ≠ 0 := by exact_mod_cast Fintype.card_ne_zero
  have hsum : ∑ k, (st t).rhok k = (Fintype.card κ : ℂ) • (st t).rho := by
    rw [(hd t).rho, smul_smul, mul_inv_cancel₀ hK', one_smul]
  have e1 : ∑ k, trace ((st t).rhok k * (ek' k + meanField U rho' - (mu' : ℂ) • 1))
      = ∑ k, trace (ek' k * (st t).rhok k)
        + (Fintype.card κ : ℂ) * (trace (meanField U rho' * (st t).rho) - (mu' : ℂ) * (st t).ntot) := by
    have h : ∀ k, trace ((st t).rhok k * (ek' k + meanField U rho' - (mu' : ℂ) • 1))
        = trace (ek' k * (st t).rhok k) + trace (meanField U rho' * (st t).rhok k)
          - (mu' : ℂ) * trace ((st t).rhok k) := by
      intro k
      rw [Matrix.mul_sub, Matrix.mul_add, Matrix.trace_sub, Matrix.trace_add, Matrix.trace_mul_comm _ (ek' k),
        Matrix.trace_mul_comm _ (meanField U rho'), mul_smul_comm, mul_one, Matrix.trace_smul, smul_eq_mul]
    simp only [h]
    rw [Finset.sum_sub_distrib, Finset.sum_add_distrib, ← Finset.mul_sum, ← Matrix.trace_sum, ← Matrix.trace_sum,
      ← Matrix.trace_sum, ← Finset.mul_sum, hsum, (hd t).number, mul_smul_comm, Matrix.trace_smul, Matrix.trace_smul, smul_eq_mul,
      smul_eq_mul]
    ring
  have e2 : (Fintype.card κ : ℂ) = ((Fintype.card κ : ℝ) : ℂ) := by push_cast; rfl
  rw [← Complex.re_sum, e1, Complex.add_re, e2, Complex.re_ofReal_mul, Complex.sub_re, Complex.re_ofReal_mul]
  field_simp
  ring

variable {d : ℕ} {n : Fin d → ℕ} [∀ i, NeZero (n i)]

/-- filling per spin of the atoms with the bare level at `-x` -/
def filling (beta x : ℝ) : ℝ := HartreeFock.fermi beta (-x)

/-- Hubbard atoms without magnetic moment at any filling -/
def atomState (n : Fin d → ℕ) (U beta x : ℝ) : State 2 (Lat n) :=
  { mu := x + U * filling beta x, M := ((U * filling beta x : ℝ) : ℂ) • 1,
    ekMF := fun _ => ((U * filling beta x : ℝ) : ℂ) • 1, rhok := fun _ => (filling beta x : ℂ) • 1,
    rho := (filling beta x : ℂ) • 1, ntot := 2 * (filling beta x : ℂ), ekin := 0,
    eint := -((U * filling beta x ^ 2 : ℝ) : ℂ), etot := -((U * filling beta x ^ 2 : ℝ) : ℂ),
    omega0 := -(2 / beta) * Real.log (1 + Real.exp (beta * x)),
    omega := ((-(2 / beta) * Real.log (1 + Real.exp (beta * x)) : ℝ) : ℂ) + -((U * filling beta x ^ 2 : ℝ) : ℂ) }

theorem atom_mean' (U f : ℝ) : meanField (atomTensor U) ((f : ℂ) • 1) = ((U * f : ℝ) : ℂ) • 1 := by
  ext a b
  simp only [meanField, atomTensor, Fin.sum_univ_two, Matrix.smul_apply, smul_eq_mul]
  fin_cases a <;> fin_cases b <;> simp [permSym, set4] <;> ring_nf <;> simp

theorem exp_scalar (z : ℂ) : NormedSpace.exp (z • (1 : Matrix (Fin 2) (Fin 2) ℂ)) = Complex.exp z • 1 := by
  rw [Matrix.smul_one_eq_diagonal, Matrix.exp_diagonal, Matrix.smul_one_eq_diagonal]
  congr 1
  funext i
  rw [Pi.coe_exp, Complex.exp_eq_exp_ℂ]

theorem atom_density (U beta x : ℝ) : DensityOf (atomTensor U) beta (fun _ : Lat n => 0) (atomState n U beta x).rho
    (atomState n U beta x) where
  mean := (atom_mean' U _).symm
  bands k := by simp [atomState]
  rhok k := by
    have e : (((U * filling beta x : ℝ) : ℂ) • 1 - ((x + U * filling beta x : ℝ) : ℂ) • 1 : Matrix (Fin 2) (Fin 2) ℂ)
        = ((-x : ℝ) : ℂ) • 1 := by
      rw [← sub_smul]; congr 1; push_cast; ring
    change (filling beta x : ℂ) • (1 : Matrix (Fin 2) (Fin 2) ℂ) = HfResponse.fermiMatrix beta
      (((U * filling beta x : ℝ) : ℂ) • 1 - ((x + U * filling beta x : ℝ) : ℂ) • 1)
    rw [e, HfResponse.fermiMatrix, smul_smul, exp_scalar]
    refine (Matrix.inv_eq_right_inv ?_).symm
    rw [mul_smul_comm, mul_one, smul_add, smul_smul, ← add_smul]
    have h : (filling beta x : ℂ) * Complex.exp ((beta : ℂ) * ((-x : ℝ) : ℂ)) + (filling beta x : ℂ) = 1 := by
      have hp := Real.exp_pos (beta * -x)
      have : filling beta x * Real.exp (beta * -x) + filling beta x = 1 := by
        rw [filling, HartreeFock.fermi]; field_simp
      rw [← Complex.ofReal_mul, ← Complex.ofReal_exp, ← Complex.ofReal_mul, ← Complex.ofReal_add, this,
        Complex.ofReal_one]
    rw [h, one_smul]
  rho := by
    change (filling beta x : ℂ) • (1 : Matrix (Fin 2) (Fin 2) ℂ)
      = (Fintype.card (Lat n) : ℂ)⁻¹ • ∑ k : Lat n, (filling beta x : ℂ) • 1
    rw [Finset.sum_const, Finset.card_univ, ← Nat.cast_smul_eq_nsmul ℂ, smul_smul, inv_mul_cancel₀ card_ne_zero',
      one_smul]
  number := by
    simp [atomState, mul_comm]

theorem atom_energy (U x : ℝ) {beta : ℝ} (hb : 0 < beta) : EnergyOf (atomTensor U) beta (fun _ : Lat n => 0)
    (atomState n U beta x) where
  kinetic := by simp [atomState]
  interaction := by
    simp only [atomState, atomTensor, Fin.sum_univ_two, Matrix.smul_apply, smul_eq_mul]
    simp [permSym, set4]
    ring
  total := by simp [atomState]
  omega0 := by
    have h0 : ∀ k : Lat n, Matrix.det (1 + NormedSpace.exp ((beta : ℂ) • -((atomState n U beta x).ekMF k
        - ((atomState n U beta x).mu : ℂ) • 1))) = (((1 + Real.exp (beta * x)) ^ 2 : ℝ) : ℂ) := by
      intro k
      have : -((atomState n U beta x).ekMF k - ((atomState n U beta x).mu : ℂ) • 1) = (x : ℂ) • 1 := by
        change -(((U * filling beta x : ℝ) : ℂ) • 1 - ((x + U * filling beta x : ℝ) : ℂ) • 1) = _
        rw [← sub_smul, ← neg_smul]; congr 1; push_cast; ring
      rw [this, smul_smul, exp_scalar, Matrix.det_fin_two]
      simp
      ring
    simp only [h0, Finset.prod_const, Finset.card_univ]
    have hp : 0 < 1 + Real.exp (beta * x) := by positivity
    have : -beta * (Fintype.card (Lat n) : ℝ) * (atomState n U beta x).omega0
        = (Fintype.card (Lat n) : ℝ) * (2 * Real.log (1 + Real.exp (beta * x))) := by
      simp only [atomState]
      field_simp
    rw [this, Real.exp_nat_mul, two_mul, Real.exp_add, Real.exp_log hp, sq]
    push_cast
    rfl
  omega := rfl

/-- The hypotheses of `C121_number` are met by interacting atoms whose filling changes: the derivative of the reported
`Omega` is minus the number of particles times the derivative of the chemical potential. -/
example (U x f' : ℝ) {beta : ℝ} (hb : 0 < beta) (hf : HasDerivAt (filling beta) f' x) :
    HasDerivAt (fun y => (atomState n U beta y).omega.re) (-(2 * filling beta x) * (1 + U * f')) x := by
  have h := C121_number (κ := Lat n) (atomTensor U) (by
      intro a b c d
      fin_cases a <;> fin_cases b <;> fin_cases c <;> fin_cases d <;> simp [atomTensor, permSym, set4]) hb
    (fun _ _ => 0) (fun y => atomState n U beta y)
    (fun y k => by
      change (0 + meanField (atomTensor U) ((filling beta y : ℂ) • 1)).IsHermitian
      rw [atom_mean', zero_add, Matrix.IsHermitian, Matrix.conjTranspose_smul, Matrix.conjTranspose_one,
        Complex.star_def, Complex.conj_ofReal])
    (fun y => atom_density U beta y) (fun y => atom_energy U y hb) x (fun _ => 0) (1 + U * f')
    ((f' : ℂ) • 1) (fun _ _ _ => hasDerivAt_const _ _) ((hasDerivAt_id x).add (hf.const_mul U))
    (fun a b => (hf.ofReal_comp).mul_const _)
  refine h.congr_deriv ?_
  simp [atomState]

end Verif.Fock
