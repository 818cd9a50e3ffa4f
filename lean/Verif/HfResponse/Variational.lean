import Verif.HfResponse.ModesProps
import Mathlib.Analysis.Calculus.Deriv.Mul
import Mathlib.Analysis.SpecialFunctions.Log.Deriv
import Mathlib.LinearAlgebra.Matrix.Permutation

/-!
# The variational grand potential

Specification side of C103: the grand potential functional of Bogoliubov for Gaussian trial states, its
stationarity at a Hartree-Fock solution and its second derivative there.
-/

noncomputable section

namespace Verif.HfResponse

open Matrix Filter Topology
open scoped Matrix.Norms.Operator ComplexOrder

variable {n : ℕ} {κ : Type*} [Fintype κ]

set_option linter.unusedSectionVars false

/-- Grand potential of free fermions with the one-body Hamiltonian `H` (chemical potential subtracted),
`-1/β log det(1 + exp(-β H))`. -/
def freeGrand (beta : ℝ) (H : Matrix (Fin n) (Fin n) ℂ) : ℝ :=
  -(1 / beta) * Real.log (Matrix.det (1 + NormedSpace.exp (((-beta : ℝ) : ℂ) • H))).re

/-- density matrix per unit cell of the trial Hamiltonian `H k` -/
def cellDensity (beta : ℝ) (H : κ → Matrix (Fin n) (Fin n) ℂ) : Matrix (Fin n) (Fin n) ℂ :=
  (Fintype.card κ : ℂ)⁻¹ • ∑ k, fermiMatrix beta (H k)

/-- Expectation value of the interaction in a Gaussian state with density matrix `ρ`, `1/2 tr(V[ρ] ρ)`, with
the mean field `V[ρ]` (see `HartreeFock.C48_interaction`, `HartreeFock.C47_energy`). -/
def wickEnergy (U : Operators.T4 n) (ρ : Matrix (Fin n) (Fin n) ℂ) : ℂ :=
  1 / 2 * Matrix.trace (HartreeFock.meanField U ρ * ρ)

/-- The variational grand potential per unit cell, `⟨H - μ N⟩ - T S`, of the Gaussian state of the trial
Hamiltonian `H k` (chemical potential subtracted) for the dispersion `e` and interaction tensor `U`:
`-T S` is the grand potential of the trial system minus the average of its Hamiltonian. -/
def grandPotential (beta mu : ℝ) (e : κ → Matrix (Fin n) (Fin n) ℂ) (U : Operators.T4 n)
    (H : κ → Matrix (Fin n) (Fin n) ℂ) : ℝ :=
  (∑ k, (freeGrand beta (H k) - (Matrix.trace (fermiMatrix beta (H k) * H k)).re
      + (Matrix.trace (fermiMatrix beta (H k) * (e k - (mu : ℂ) • 1))).re)) / Fintype.card κ
    + (wickEnergy U (cellDensity beta H)).re

/-! ## Derivative of a determinant -/

theorem hasDerivAt_entry {A : ℝ → Matrix (Fin n) (Fin n) ℂ} {A' : Matrix (Fin n) (Fin n) ℂ} {t : ℝ}
    (hA : HasDerivAt A A' t) (i j : Fin n) : HasDerivAt (fun s => A s i j) (A' i j) t := by
  let L : Matrix (Fin n) (Fin n) ℂ →L[ℝ] ℂ := LinearMap.toContinuousLinearMap (Matrix.entryLinearMap ℝ ℂ i j)
  exact L.hasFDerivAt.comp_hasDerivAt t hA

theorem hasDerivAt_det_one {A : ℝ → Matrix (Fin n) (Fin n) ℂ} {A' : Matrix (Fin n) (Fin n) ℂ} {t : ℝ}
    (h0 : A t = 1) (hA : ∀ i j, HasDerivAt (fun s => A s i j) (A' i j) t) :
    HasDerivAt (fun s => (A s).det) (Matrix.trace A') t := by
  have h1 : ∀ σ : Equiv.Perm (Fin n), HasDerivAt (fun s => ((Equiv.Perm.sign σ : ℤ) : ℂ) * ∏ i, A s (σ i) i)
      (if σ = 1 then Matrix.trace A' else 0) t := by
    intro σ
    have h2 := (HasDerivAt.fun_finsetProd (u := Finset.univ) (f := fun i s => A s (σ i) i)
      (f' := fun i => A' (σ i) i) (x := t) fun i _ => hA (σ i) i).const_mul ((Equiv.Perm.sign σ : ℤ) : ℂ)
    refine h2.congr_deriv ?_
    rw [h0]
    by_cases hs : σ = 1
    · subst hs
      rw [if_pos rfl, Equiv.Perm.sign_one, Units.val_one, Int.cast_one, one_mul]
      refine Finset.sum_congr rfl fun i _ => ?_
      have hp : ∏ j ∈ Finset.univ.erase i, (1 : Matrix (Fin n) (Fin n) ℂ) ((1 : Equiv.Perm (Fin n)) j) j = 1 :=
        Finset.prod_eq_one fun j _ => Matrix.one_apply_eq j
      rw [hp, one_smul]
      rfl
    · rw [if_neg hs]
      refine mul_eq_zero_of_right _ (Finset.sum_eq_zero fun i _ => ?_)
      obtain ⟨j, hj, hji⟩ : ∃ j, σ j ≠ j ∧ j ≠ i := by
        by_contra hc
        push Not at hc
        apply hs
        have hfix : ∀ j, j ≠ i → σ j = j := fun j hji => by
          by_contra hne
          exact hji (hc j hne)
        ext j
        by_cases hji : j = i
        · subst hji
          have : σ j = j := by
            by_contra hne
            have := hfix (σ j) hne
            exact hne (σ.injective this)
          rw [this]; rfl
        · rw [hfix j hji]; rfl
      have hp : ∏ j ∈ Finset.univ.erase i, (1 : Matrix (Fin n) (Fin n) ℂ) (σ j) j = 0 :=
        Finset.prod_eq_zero (Finset.mem_erase.2 ⟨hji, Finset.mem_univ j⟩) (Matrix.one_apply_ne hj)
      rw [hp, zero_smul]
  have h3 := HasDerivAt.fun_sum (u := Finset.univ) fun (σ : Equiv.Perm (Fin n)) _ => h1 σ
  simp only [Finset.sum_ite_eq', Finset.mem_univ, if_true] at h3
  refine h3.congr_of_eventuallyEq (Eventually.of_forall fun s => ?_)
  change (A s).det = _
  rw [Matrix.det_apply']

/-- Jacobi's formula -/
theorem hasDerivAt_det {A : ℝ → Matrix (Fin n) (Fin n) ℂ} {A' : Matrix (Fin n) (Fin n) ℂ} {t : ℝ}
    (hu : IsUnit (A t).det) (hA : HasDerivAt A A' t) :
    HasDerivAt (fun s => (A s).det) ((A t).det * Matrix.trace ((A t)⁻¹ * A')) t := by
  have h1 : HasDerivAt (fun s => (A t)⁻¹ * A s) ((A t)⁻¹ * A') t := hA.const_mul _
  have h2 := hasDerivAt_det_one (Matrix.nonsing_inv_mul _ hu) (fun i j => hasDerivAt_entry h1 i j)
  refine (h2.const_mul (A t).det).congr_of_eventuallyEq (Eventually.of_forall fun s => ?_)
  change (A s).det = (A t).det * ((A t)⁻¹ * A s).det
  rw [Matrix.det_mul, ← mul_assoc, ← Matrix.det_mul, Matrix.mul_nonsing_inv _ hu, Matrix.det_one, one_mul]

/-! ## First and second derivative of the grand potential -/

/-- the grand potential of free fermions through the Fermi function -/
theorem freeGrand_eq (beta : ℝ) {H : Matrix (Fin n) (Fin n) ℂ} (hH : H.IsHermitian) :
    freeGrand beta H = 1 / beta * Real.log (Matrix.det (1 - fermiMatrix beta H)).re ∧
      ∃ r : ℝ, 0 < r ∧ Matrix.det (1 - fermiMatrix beta H) = (r : ℂ) := by
  obtain ⟨eig, he⟩ := Lindhard.exists_eigSpec (o := Fin n)
  have hp : Lindhard.Diag H (eig H) := he H hH
  set p := eig H
  have hdet : ∀ f : ℝ → ℂ, (Lindhard.matFun p f).det = ∏ i, f (p.1 i) := by
    intro f
    have h1 : (p.2).det * (p.2ᴴ).det = 1 := by rw [← Matrix.det_mul, hp.2.1, Matrix.det_one]
    rw [Lindhard.matFun, Matrix.det_mul, Matrix.det_mul, Matrix.det_diagonal, mul_right_comm, h1, one_mul]
  have h1 : (1 : Matrix (Fin n) (Fin n) ℂ) - fermiMatrix beta H
      = Lindhard.matFun p fun x => ((1 - HartreeFock.fermi beta x : ℝ) : ℂ) := by
    rw [sub_eq_iff_eq_add, fermiMatrix_of_diag beta hp, matFun_add, ← Lindhard.matFun_one hp]
    congr 1
    funext x
    push_cast
    ring
  have h2 : (1 : Matrix (Fin n) (Fin n) ℂ) + NormedSpace.exp (((-beta : ℝ) : ℂ) • H)
      = Lindhard.matFun p fun x => ((1 - HartreeFock.fermi beta x : ℝ) : ℂ)⁻¹ := by
    rw [exp_of_diag (-beta) hp, ← Lindhard.matFun_one hp, matFun_add]
    congr 1
    funext x
    rw [← Complex.ofReal_inv, ← Complex.ofReal_one, ← Complex.ofReal_add]
    congr 1
    have h3 := fermi_lt_one beta x
    have h4 := Real.exp_pos (beta * x)
    rw [neg_mul, Real.exp_neg]
    unfold HartreeFock.fermi at h3 ⊢
    have h5 : 1 - 1 / (Real.exp (beta * x) + 1) ≠ 0 := (sub_pos.2 h3).ne'
    field_simp
    ring
  have hpos : 0 < ∏ i, (1 - HartreeFock.fermi beta (p.1 i)) :=
    Finset.prod_pos fun i _ => sub_pos.2 (fermi_lt_one _ _)
  refine ⟨?_, ∏ i, (1 - HartreeFock.fermi beta (p.1 i)), hpos, ?_⟩
  · rw [freeGrand, h1, h2, hdet, hdet, Finset.prod_inv_distrib, ← Complex.ofReal_prod, ← Complex.ofReal_inv,
      Complex.ofReal_re, Complex.ofReal_re, Real.log_inv]
    ring
  · rw [h1, hdet, Complex.ofReal_prod]

theorem trace_one_sub (beta : ℝ) {H : Matrix (Fin n) (Fin n) ℂ} (hH : H.IsHermitian)
    (Y : Matrix (Fin n) (Fin n) ℂ) :
    Matrix.trace ((1 - fermiMatrix beta H)⁻¹ * dFermi beta H Y)
      = -(beta : ℂ) * Matrix.trace (fermiMatrix beta H * Y) := by
  obtain ⟨eig, he⟩ := Lindhard.exists_eigSpec (o := Fin n)
  have hp : Lindhard.Diag H (eig H) := he H hH
  set p := eig H
  have h1 : (1 - fermiMatrix beta H)⁻¹ = Lindhard.matFun p fun x => ((1 - HartreeFock.fermi beta x : ℝ) : ℂ)⁻¹ := by
    refine Matrix.inv_eq_right_inv ?_
    rw [fermiMatrix_of_diag beta hp, sub_mul, one_mul, matFun_mul p hp.1, sub_eq_iff_eq_add,
      ← Lindhard.matFun_one hp, matFun_add]
    congr 1
    funext x
    have h3 : ((1 - HartreeFock.fermi beta x : ℝ) : ℂ) ≠ 0 := by
      exact_mod_cast (sub_pos.2 (fermi_lt_one beta x)).ne'
    push_cast at h3 ⊢
    field_simp
    ring
  have key : ∀ (f : ℝ → ℂ) (D : Matrix (Fin n) (Fin n) ℂ),
      Matrix.trace (Lindhard.matFun p f * (p.2 * D * p.2ᴴ)) = ∑ i, f (p.1 i) * D i i := by
    intro f D
    have e : Lindhard.matFun p f * (p.2 * D * p.2ᴴ) = p.2 * (diagonal (fun i => f (p.1 i)) * D) * p.2ᴴ := by
      rw [Lindhard.matFun]
      calc _ = p.2 * diagonal (fun i => f (p.1 i)) * (p.2ᴴ * p.2) * D * p.2ᴴ := by noncomm_ring
        _ = _ := by rw [hp.1, mul_one]; noncomm_ring
    rw [e, Matrix.trace_mul_comm, ← Matrix.mul_assoc, hp.1, one_mul]
    simp only [Matrix.trace, Matrix.diag_apply, Matrix.diagonal_mul]
  have hY : Y = p.2 * (p.2ᴴ * Y * p.2) * p.2ᴴ := by
    calc Y = (p.2 * p.2ᴴ) * Y * (p.2 * p.2ᴴ) := by rw [hp.2.1, one_mul, mul_one]
      _ = _ := by noncomm_ring
  rw [h1, dFermi_eig beta hp, key, fermiMatrix_of_diag beta hp]
  conv_rhs => rw [hY]
  rw [key, Finset.mul_sum]
  refine Finset.sum_congr rfl fun i _ => ?_
  rw [Matrix.of_apply, divDiff, if_pos rfl]
  have h3 : ((1 - HartreeFock.fermi beta (p.1 i) : ℝ) : ℂ) ≠ 0 := by
    exact_mod_cast (sub_pos.2 (fermi_lt_one beta (p.1 i))).ne'
  push_cast at h3 ⊢
  field_simp

theorem line_hermitian {H Y : Matrix (Fin n) (Fin n) ℂ} (hH : H.IsHermitian) (hY : Y.IsHermitian) (t : ℝ) :
    (H + (t : ℂ) • Y).IsHermitian := add_smul_isHermitian hH hY t

theorem hasDerivAt_line_at (beta : ℝ) {H Y : Matrix (Fin n) (Fin n) ℂ} (hH : H.IsHermitian)
    (hY : Y.IsHermitian) (t : ℝ) :
    HasDerivAt (fun s : ℝ => fermiMatrix beta (H + (s : ℂ) • Y)) (dFermi beta (H + (t : ℂ) • Y) Y) t := by
  have hl : HasDerivAt (fun t : ℝ => H + (t : ℂ) • Y) Y t := by
    have h1 : HasDerivAt (fun t : ℝ => (t : ℂ)) 1 t := Complex.ofRealCLM.hasDerivAt
    exact ((h1.smul_const Y).const_add H).congr_deriv (by simp)
  exact ((hasFDerivAt_fermi beta (line_hermitian hH hY t)).restrictScalars ℝ).comp_hasDerivAt t hl

/-- derivative of the free grand potential: the average of the perturbation -/
theorem freeGrand_hasDerivAt {beta : ℝ} (hb : 0 < beta) {H Y : Matrix (Fin n) (Fin n) ℂ} (hH : H.IsHermitian)
    (hY : Y.IsHermitian) (t : ℝ) :
    HasDerivAt (fun s : ℝ => freeGrand beta (H + (s : ℂ) • Y))
      (Matrix.trace (fermiMatrix beta (H + (t : ℂ) • Y) * Y)).re t := by
  obtain ⟨r, hr, hd⟩ := (freeGrand_eq beta (line_hermitian hH hY t)).2
  have h1 := hasDerivAt_line_at beta hH hY t
  have h2 : HasDerivAt (fun s : ℝ => 1 - fermiMatrix beta (H + (s : ℂ) • Y))
      (-(dFermi beta (H + (t : ℂ) • Y) Y)) t := h1.const_sub 1
  have hu : IsUnit (1 - fermiMatrix beta (H + (t : ℂ) • Y)).det := by
    rw [hd, isUnit_iff_ne_zero]
    exact_mod_cast hr.ne'
  have h3 := hasDerivAt_det (A := fun s : ℝ => 1 - fermiMatrix beta (H + (s : ℂ) • Y)) hu h2
  have h4 : HasDerivAt (fun s : ℝ => (1 - fermiMatrix beta (H + (s : ℂ) • Y)).det.re)
      (r * (beta * (Matrix.trace (fermiMatrix beta (H + (t : ℂ) • Y) * Y)).re)) t := by
    have := Complex.reCLM.hasFDerivAt.comp_hasDerivAt t h3
    refine this.congr_deriv ?_
    rw [hd, Matrix.mul_neg, Matrix.trace_neg, trace_one_sub beta (line_hermitian hH hY t)]
    simp
  have h5 := (h4.log (by rw [hd]; exact_mod_cast hr.ne')).const_mul (1 / beta)
  refine (h5.congr_of_eventuallyEq (Eventually.of_forall fun s => ?_)).congr_deriv ?_
  · exact (freeGrand_eq beta (line_hermitian hH hY s)).1
  · rw [hd, Complex.ofReal_re]
    field_simp

theorem trace_hasDerivAt {A : ℝ → Matrix (Fin n) (Fin n) ℂ} {A' : Matrix (Fin n) (Fin n) ℂ} {t : ℝ}
    (h : HasDerivAt A A' t) : HasDerivAt (fun s => (Matrix.trace (A s)).re) (Matrix.trace A').re t := by
  let L : Matrix (Fin n) (Fin n) ℂ →L[ℝ] ℂ := LinearMap.toContinuousLinearMap (Matrix.traceLinearMap (Fin n) ℝ ℂ)
  exact (Complex.reCLM.comp L).hasFDerivAt.comp_hasDerivAt t h

theorem meanField_hasDerivAt (U : Operators.T4 n) {A : ℝ → Matrix (Fin n) (Fin n) ℂ}
    {A' : Matrix (Fin n) (Fin n) ℂ} {t : ℝ} (h : HasDerivAt A A' t) :
    HasDerivAt (fun s => HartreeFock.meanField U (A s)) (HartreeFock.meanField U A') t := by
  refine hasDerivAt_matrix fun b a => ?_
  simp only [HartreeFock.meanField]
  exact HasDerivAt.fun_sum fun c _ => HasDerivAt.fun_sum fun d _ => (hasDerivAt_entry h c d).const_mul _

/-- the bilinear form of the interaction is symmetric -/
theorem meanField_symm (U : Operators.T4 n) (hU : ∀ a b c d, U c d a b = U a b c d)
    (A B : Matrix (Fin n) (Fin n) ℂ) :
    Matrix.trace (HartreeFock.meanField U A * B) = Matrix.trace (HartreeFock.meanField U B * A) := by
  have h : ∀ A B : Matrix (Fin n) (Fin n) ℂ, Matrix.trace (HartreeFock.meanField U A * B)
      = ∑ X : Fin n × Fin n, ∑ Z : Fin n × Fin n, -U X.1 X.2 Z.1 Z.2 * A Z.1 Z.2 * B X.1 X.2 := by
    intro A B
    simp only [Matrix.trace, Matrix.diag_apply, Matrix.mul_apply, HartreeFock.meanField, Finset.sum_mul,
      Fintype.sum_prod_type]
    rw [Finset.sum_comm]
  rw [h, h, Finset.sum_comm]
  refine Finset.sum_congr rfl fun X _ => Finset.sum_congr rfl fun Z _ => ?_
  rw [hU]
  ring

/-- change of the density matrix per cell along the trial field `Y`, at strength `t` -/
def cellDensity' (beta : ℝ) (h : κ → Matrix (Fin n) (Fin n) ℂ) (Y : Matrix (Fin n) (Fin n) ℂ) (t : ℝ) :
    Matrix (Fin n) (Fin n) ℂ :=
  (Fintype.card κ : ℂ)⁻¹ • ∑ k, dFermi beta (h k + (t : ℂ) • Y) Y

theorem cellDensity_hasDerivAt (beta : ℝ) {h : κ → Matrix (Fin n) (Fin n) ℂ} {Y : Matrix (Fin n) (Fin n) ℂ}
    (hh : ∀ k, (h k).IsHermitian) (hY : Y.IsHermitian) (t : ℝ) :
    HasDerivAt (fun s : ℝ => cellDensity beta fun k => h k + (s : ℂ) • Y) (cellDensity' beta h Y t) t :=
  HasDerivAt.fun_const_smul _ (HasDerivAt.fun_sum (u := Finset.univ) fun k _ => hasDerivAt_line_at beta (hh k) hY t)

/-- first derivative of the variational grand potential along a trial field -/
theorem grandPotential_hasDerivAt {beta : ℝ} (hb : 0 < beta) (mu : ℝ) (e : κ → Matrix (Fin n) (Fin n) ℂ)
    (U : Operators.T4 n) (hU : ∀ a b c d, U c d a b = U a b c d) (V0 : Matrix (Fin n) (Fin n) ℂ)
    (hh : ∀ k, (e k + V0 - (mu : ℂ) • 1).IsHermitian) {Y : Matrix (Fin n) (Fin n) ℂ} (hY : Y.IsHermitian)
    (t : ℝ) :
    HasDerivAt (fun s : ℝ => grandPotential beta mu e U fun k => e k + V0 - (mu : ℂ) • 1 + (s : ℂ) • Y)
      (Matrix.trace ((HartreeFock.meanField U (cellDensity beta fun k => e k + V0 - (mu : ℂ) • 1 + (t : ℂ) • Y)
        - V0 - (t : ℂ) • Y) * cellDensity' beta (fun k => e k + V0 - (mu : ℂ) • 1) Y t)).re t := by
  set h : κ → Matrix (Fin n) (Fin n) ℂ := fun k => e k + V0 - (mu : ℂ) • 1 with hdef
  have hW : HasDerivAt (fun s : ℝ => V0 + (s : ℂ) • Y) Y t := by
    have h1 : HasDerivAt (fun t : ℝ => (t : ℂ)) 1 t := Complex.ofRealCLM.hasDerivAt
    exact ((h1.smul_const Y).const_add V0).congr_deriv (by simp)
  have hρ := cellDensity_hasDerivAt beta hh hY t
  have hwick : HasDerivAt (fun s : ℝ => (wickEnergy U (cellDensity beta fun k => h k + (s : ℂ) • Y)).re)
      (Matrix.trace (HartreeFock.meanField U (cellDensity beta fun k => h k + (t : ℂ) • Y)
        * cellDensity' beta h Y t)).re t := by
    have h1 := trace_hasDerivAt ((meanField_hasDerivAt U hρ).mul hρ)
    have h2 := h1.const_mul (1 / 2 : ℝ)
    refine (h2.congr_of_eventuallyEq (Eventually.of_forall fun s => ?_)).congr_deriv ?_
    · simp only [wickEnergy]
      have : (1 / 2 : ℂ) = ((1 / 2 : ℝ) : ℂ) := by push_cast; rfl
      rw [this, Complex.re_ofReal_mul]
      rfl
    · rw [Matrix.trace_add, meanField_symm U hU, Complex.add_re]
      ring
  have hone : ∀ k, HasDerivAt (fun s : ℝ => freeGrand beta (h k + (s : ℂ) • Y)
      - (Matrix.trace (fermiMatrix beta (h k + (s : ℂ) • Y) * (h k + (s : ℂ) • Y))).re
      + (Matrix.trace (fermiMatrix beta (h k + (s : ℂ) • Y) * (e k - (mu : ℂ) • 1))).re)
      (-(Matrix.trace (dFermi beta (h k + (t : ℂ) • Y) Y * (V0 + (t : ℂ) • Y))).re) t := by
    intro k
    have h1 := freeGrand_hasDerivAt hb (hh k) hY t
    have h2 := trace_hasDerivAt ((hasDerivAt_line_at beta (hh k) hY t).mul hW)
    refine ((h1.sub h2).congr_of_eventuallyEq (Eventually.of_forall fun s => ?_)).congr_deriv ?_
    · change freeGrand beta (h k + (s : ℂ) • Y)
        - (Matrix.trace (fermiMatrix beta (h k + (s : ℂ) • Y) * (h k + (s : ℂ) • Y))).re
        + (Matrix.trace (fermiMatrix beta (h k + (s : ℂ) • Y) * (e k - (mu : ℂ) • 1))).re
        = freeGrand beta (h k + (s : ℂ) • Y)
          - (Matrix.trace (fermiMatrix beta (h k + (s : ℂ) • Y) * (V0 + (s : ℂ) • Y))).re
      have e1 : e k - (mu : ℂ) • 1 = (h k + (s : ℂ) • Y) - (V0 + (s : ℂ) • Y) := by
        simp only [hdef]; abel
      rw [e1, Matrix.mul_sub, Matrix.trace_sub, Complex.sub_re]
      ring
    · rw [Matrix.trace_add, Complex.add_re]
      ring
  have hsum := ((HasDerivAt.fun_sum (u := Finset.univ) fun k _ => hone k).div_const (Fintype.card κ : ℝ)).add hwick
  refine (hsum.congr_of_eventuallyEq (Eventually.of_forall fun s => rfl)).congr_deriv ?_
  have e2 : (∑ k, -(Matrix.trace (dFermi beta (h k + (t : ℂ) • Y) Y * (V0 + (t : ℂ) • Y))).re) / (Fintype.card κ : ℝ)
      = -(Matrix.trace ((V0 + (t : ℂ) • Y) * cellDensity' beta h Y t)).re := by
    rw [cellDensity', Matrix.mul_smul, Matrix.trace_smul, Matrix.mul_sum, Matrix.trace_sum]
    have : ((Fintype.card κ : ℂ)⁻¹) = (((Fintype.card κ : ℝ)⁻¹ : ℝ) : ℂ) := by push_cast; rfl
    rw [this, smul_eq_mul, Complex.re_ofReal_mul, Complex.re_sum, Finset.sum_neg_distrib]
    simp only [Matrix.trace_mul_comm (V0 + (t : ℂ) • Y)]
    rw [div_eq_inv_mul]
    ring
  rw [e2, sub_sub, Matrix.sub_mul, Matrix.trace_sub, Complex.sub_re]
  ring

theorem fermiMatrix_analyticAt (beta : ℝ) {h : Matrix (Fin n) (Fin n) ℂ} (hh : h.IsHermitian) :
    AnalyticAt ℂ (fermiMatrix (n := n) beta) h := by
  have h1 : AnalyticAt ℂ (fun x : Matrix (Fin n) (Fin n) ℂ => NormedSpace.exp ((beta : ℂ) • x) + 1) h := by
    refine AnalyticAt.add ?_ analyticAt_const
    have h2 : AnalyticAt ℂ (NormedSpace.exp : Matrix (Fin n) (Fin n) ℂ → Matrix (Fin n) (Fin n) ℂ)
        ((beta : ℂ) • h) := NormedSpace.exp_analytic (𝕂 := ℂ) _
    exact h2.comp_of_eq (f := fun x => (beta : ℂ) • x) (analyticAt_id.const_smul (c := (beta : ℂ))) rfl
  have hu := isUnit_exp_add_one beta hh
  have h3 : AnalyticAt ℂ Ring.inverse (NormedSpace.exp ((beta : ℂ) • h) + 1) := by
    have := analyticAt_inverse (𝕜 := ℂ) hu.unit
    rwa [IsUnit.unit_spec] at this
  refine (h3.comp_of_eq h1 rfl).congr (Eventually.of_forall fun x => ?_)
  simp only [fermiMatrix, Function.comp, Matrix.nonsing_inv_eq_ringInverse]

theorem cellDensity'_continuousAt (beta : ℝ) {h : κ → Matrix (Fin n) (Fin n) ℂ}
    (Y : Matrix (Fin n) (Fin n) ℂ) (hh : ∀ k, (h k).IsHermitian) :
    ContinuousAt (cellDensity' beta h Y) 0 := by
  have h1 : ∀ k, ContinuousAt (fun t : ℝ => dFermi beta (h k + (t : ℂ) • Y) Y) 0 := by
    intro k
    have h2 : ContinuousAt (fderiv ℂ (fermiMatrix (n := n) beta)) (h k + ((0 : ℝ) : ℂ) • Y) := by
      rw [Complex.ofReal_zero, zero_smul, add_zero]
      exact (fermiMatrix_analyticAt beta (hh k)).fderiv.continuousAt
    have h3 : ContinuousAt (fun t : ℝ => h k + (t : ℂ) • Y) 0 :=
      (continuous_const.add (Complex.continuous_ofReal.smul continuous_const)).continuousAt
    have h4 : ContinuousAt (fun t : ℝ => fderiv ℂ (fermiMatrix (n := n) beta) (h k + (t : ℂ) • Y)) 0 :=
      ContinuousAt.comp (f := fun t : ℝ => h k + (t : ℂ) • Y) h2 h3
    exact h4.clm_apply continuousAt_const
  unfold cellDensity'
  exact (tendsto_finsetSum _ fun k _ => h1 k).const_smul _

/-- the second derivative at a stationary point -/
theorem trace_mul_hasDerivAt {W D : ℝ → Matrix (Fin n) (Fin n) ℂ} {W' : Matrix (Fin n) (Fin n) ℂ}
    (hW : HasDerivAt W W' 0) (h0 : W 0 = 0) (hD : ContinuousAt D 0) :
    HasDerivAt (fun t => (Matrix.trace (W t * D t)).re) (Matrix.trace (W' * D 0)).re 0 := by
  rw [hasDerivAt_iff_tendsto_slope_zero]
  have h1 := hW.tendsto_slope_zero
  have h2 : Tendsto (fun t => D t) (𝓝[≠] 0) (𝓝 (D 0)) := hD.tendsto.mono_left nhdsWithin_le_nhds
  have h3 := h1.mul h2
  let L : Matrix (Fin n) (Fin n) ℂ →L[ℝ] ℂ := LinearMap.toContinuousLinearMap (Matrix.traceLinearMap (Fin n) ℝ ℂ)
  have h4 := ((Complex.reCLM.comp L).continuous.tendsto _).comp h3
  refine h4.congr fun t => ?_
  simp only [Function.comp, zero_add, h0, sub_zero, Matrix.zero_mul, Matrix.trace_zero, Complex.zero_re]
  change (Matrix.trace (t⁻¹ • W t * D t)).re = t⁻¹ • (Matrix.trace (W t * D t)).re
  rw [Matrix.smul_mul, Matrix.trace_smul, Complex.smul_re]

end Verif.HfResponse
