import Verif.HfResponse.Hartree
import Verif.HfResponse.Violations

/-!
# A concrete case meeting the hypotheses of C83, and interaction tensors of self-adjoint operators
-/

noncomputable section

namespace Verif.HfResponse

open Matrix Filter Topology
open scoped Matrix.Norms.Operator

variable {n : ℕ} {κ : Type*} [Fintype κ]

set_option linter.unusedSectionVars false

/-- The symmetries of the interaction used by C83 hold for the tensor that `get_rpa_tensor` makes of a
self-adjoint operator, when that tensor is real. -/
theorem rpa_tensor_symmetries {ι : Type} [LinearOrder ι] (fs : List ι) (hnd : fs.Nodup) (x : Operators.Op ι)
    (hx : Operators.Canonical x) (hself : Operators.dagger x = x) (ts : List (Operators.Mono ι × ℂ))
    (hts : Operators.Enumerates ts x) (U : Operators.T4 fs.length)
    (hU : Operators.getRpaTensor fs ts = .ok U) (hre : ∀ a b c d, (U a b c d).im = 0) :
    (∀ a b c d, U c d a b = U a b c d) ∧ (∀ a b c d, U b a d c = U a b c d) := by
  obtain ⟨h1, h2, -⟩ := Operators.C37_rpa_tensor fs hnd x hx ts hts U hU
  refine ⟨fun a b c d => ?_, fun a b c d => ?_⟩
  · rw [h1 a d c b, h2 a b c d, neg_neg]
  · rw [← HartreeFock.rpaTensor_conj fs hnd x hx hself ts hts U hU a b c d]
    exact Complex.conj_eq_iff_im.2 (hre a b c d)

theorem fermiMatrix_scalar (beta c : ℝ) :
    fermiMatrix beta ((c : ℂ) • (1 : Matrix (Fin n) (Fin n) ℂ)) = (HartreeFock.fermi beta c : ℂ) • 1 := by
  have hp : Lindhard.Diag ((c : ℂ) • (1 : Matrix (Fin n) (Fin n) ℂ)) (fun _ => c, 1) := by
    refine ⟨by simp, by simp, ?_⟩
    simp [Matrix.smul_one_eq_diagonal]
  rw [fermiMatrix_of_diag beta hp]
  simp [Lindhard.matFun, Matrix.smul_one_eq_diagonal]

/-- derivative of the Fermi function at the zero matrix -/
theorem dFermi_zero (beta : ℝ) (F : Matrix (Fin n) (Fin n) ℂ) :
    dFermi beta 0 F = (-(beta : ℂ) / 4) • F := by
  have hE : HasFDerivAt (fun x : Matrix (Fin n) (Fin n) ℂ => NormedSpace.exp ((beta : ℂ) • x) + 1)
      ((beta : ℂ) • ContinuousLinearMap.id ℂ (Matrix (Fin n) (Fin n) ℂ)) 0 := by
    have h1 : HasFDerivAt (NormedSpace.exp : Matrix (Fin n) (Fin n) ℂ → Matrix (Fin n) (Fin n) ℂ)
        (1 : Matrix (Fin n) (Fin n) ℂ →L[ℂ] Matrix (Fin n) (Fin n) ℂ)
        ((beta : ℂ) • (0 : Matrix (Fin n) (Fin n) ℂ)) := by
      rw [smul_zero]; exact hasFDerivAt_exp_zero
    have h2 := h1.comp (0 : Matrix (Fin n) (Fin n) ℂ) ((hasFDerivAt_id (𝕜 := ℂ) 0).const_smul (beta : ℂ))
    exact (h2.add_const 1)
  have h2u : IsUnit ((2 : ℂ) • (1 : Matrix (Fin n) (Fin n) ℂ)) := by
    refine ⟨⟨(2 : ℂ) • 1, (1 / 2 : ℂ) • 1, ?_, ?_⟩, rfl⟩ <;> simp
  have hval : NormedSpace.exp ((beta : ℂ) • (0 : Matrix (Fin n) (Fin n) ℂ)) + 1 = h2u.unit := by
    rw [smul_zero, NormedSpace.exp_zero, IsUnit.unit_spec, two_smul]
  have hI := hasFDerivAt_ringInverse (𝕜 := ℂ) h2u.unit
  rw [← hval] at hI
  have hc := hI.comp (0 : Matrix (Fin n) (Fin n) ℂ) hE
  have hfun : (Ring.inverse ∘ fun x : Matrix (Fin n) (Fin n) ℂ => NormedSpace.exp ((beta : ℂ) • x) + 1)
      = fermiMatrix beta := by
    funext x
    exact (Matrix.nonsing_inv_eq_ringInverse _).symm
  rw [hfun] at hc
  have hinv : ((h2u.unit⁻¹ : (Matrix (Fin n) (Fin n) ℂ)ˣ) : Matrix (Fin n) (Fin n) ℂ) = (1 / 2 : ℂ) • 1 := by
    refine Units.inv_eq_of_mul_eq_one_right ?_
    rw [IsUnit.unit_spec]; simp
  rw [(hasFDerivAt_fermi beta Matrix.isHermitian_zero).unique hc]
  show -(((h2u.unit⁻¹ : (Matrix (Fin n) (Fin n) ℂ)ˣ) : Matrix (Fin n) (Fin n) ℂ) * ((beta : ℂ) • F)
    * ((h2u.unit⁻¹ : (Matrix (Fin n) (Fin n) ℂ)ˣ) : Matrix (Fin n) (Fin n) ℂ)) = _
  rw [hinv]
  simp only [Matrix.smul_mul, Matrix.mul_smul, one_mul, mul_one, smul_smul, ← neg_smul]
  congr 1
  ring

/-- interaction tensor of `n_0 n_1` for two spin orbitals in the convention of `get_rpa_tensor` -/
def hubTensor : Operators.T4 2 := fun a b c d =>
  if a = b ∧ c = d ∧ a ≠ c then -1 else if a = d ∧ b = c ∧ a ≠ b then 1 else 0

/-- solver of a half filled Hubbard atom at unit interaction and temperature -/
def hubSolver : Solver 2 (Fin 1) :=
  { beta := 1, mu := 1 / 2, ekMF := fun _ => (1 / 2 : ℂ) • 1, U := hubTensor }

theorem hub_meanField (x : ℂ) : HartreeFock.meanField hubTensor (x • 1) = x • 1 := by
  ext b a
  fin_cases a <;> fin_cases b <;>
    simp [HartreeFock.meanField, hubTensor, Fin.sum_univ_two, Matrix.one_apply]

/-- there is a differentiable branch of fillings in a field -/
theorem hub_branch : ∃ x : ℝ → ℝ, x 0 = 1 / 2 ∧ DifferentiableAt ℝ x 0 ∧
    ∀ᶠ t in 𝓝 (0 : ℝ), x t = HartreeFock.fermi 1 (x t - 1 / 2 + t) := by
  let g : ℝ → ℝ := fun x => Real.log (1 / x - 1) - x + 1 / 2
  have hg0 : g (1 / 2) = 0 := by
    simp only [g]; norm_num
  have hg : HasStrictDerivAt g (-5) (1 / 2) := by
    have h1 : HasStrictDerivAt (fun x : ℝ => 1 / x - 1) (-4) (1 / 2) := by
      have h2 : HasStrictDerivAt (fun x : ℝ => x⁻¹) (-((1 / 2 : ℝ) ^ 2)⁻¹) (1 / 2) :=
        hasStrictDerivAt_inv (by norm_num)
      have h3 := h2.sub_const 1
      have e : -((1 / 2 : ℝ) ^ 2)⁻¹ = -4 := by norm_num
      rw [e] at h3
      exact (funext fun x : ℝ => by rw [one_div] : (fun x : ℝ => 1 / x - 1) = fun x => x⁻¹ - 1) ▸ h3
    have h4 := h1.log (by norm_num)
    have h5 := (h4.sub (hasStrictDerivAt_id (1 / 2 : ℝ))).add_const (1 / 2)
    have e : (-4 : ℝ) / (1 / (1 / 2) - 1) - 1 = -5 := by norm_num
    rw [e] at h5
    exact h5
  obtain ⟨x, hv, hd, hr⟩ : ∃ x : ℝ → ℝ, x 0 = 1 / 2 ∧ HasDerivAt x (-5)⁻¹ 0 ∧
      ∀ᶠ t in 𝓝 (0 : ℝ), g (x t) = t := by
    have hne : (-5 : ℝ) ≠ 0 := by norm_num
    refine ⟨hg.localInverse g _ _ hne, ?_, ?_, ?_⟩
    · have := (hg.hasStrictFDerivAt_equiv hne).localInverse_apply_image
      rw [hg0] at this
      exact this
    · have := (hg.to_localInverse hne).hasDerivAt
      rw [hg0] at this
      exact this
    · have := (hg.hasStrictFDerivAt_equiv hne).eventually_right_inverse
      rw [hg0] at this
      exact this
  refine ⟨x, hv, hd.differentiableAt, ?_⟩
  · have hcont : ContinuousAt x 0 := hd.continuousAt
    have hpos : ∀ᶠ t in 𝓝 (0 : ℝ), 0 < x t :=
      hcont.eventually (by rw [hv]; exact lt_mem_nhds (by norm_num))
    have hlt : ∀ᶠ t in 𝓝 (0 : ℝ), x t < 1 :=
      hcont.tendsto.eventually_lt_const (by rw [hv]; norm_num)
    filter_upwards [hr, hpos, hlt] with t h1 h2 h3
    set y := x t
    have h4 : y - 1 / 2 + t = Real.log (1 / y - 1) := by
      have : g y = t := h1
      simp only [g] at this
      linarith
    have h5 : 0 < 1 / y - 1 := by
      rw [sub_pos, lt_div_iff₀ h2]; linarith
    rw [HartreeFock.fermi, h4, one_mul, Real.exp_log h5]
    field_simp
    ring

theorem hub_base : (baseInit hubSolver 0).ek 0 = 0 := by
  simp [baseInit, hubSolver]

theorem hub_chi0Lim (x y c d : Fin 2) :
    chi0Lim (baseInit hubSolver 0) x y c d = if c = y ∧ d = x then 1 / 4 else 0 := by
  simp only [chi0Lim, Finset.univ_unique, Finset.sum_singleton, Fintype.card_unique, Nat.cast_one, div_one]
  have : (baseInit hubSolver 0).ek default = 0 := hub_base
  rw [this, dFermi_zero]
  simp only [Matrix.smul_apply, unit, smul_eq_mul, baseInit, hubSolver]
  split_ifs <;> (simp; try norm_num)

/-- The hypotheses of `C83_response_partial` are met by the half filled Hubbard atom in a uniform field. -/
example {eig : Lindhard.Eig (Fin 2)} (hs : Lindhard.EigSpec eig) :
    ∃ ρ : ℝ → Matrix (Fin 2) (Fin 2) ℂ,
      (∀ k, (hubSolver.ekMF k).IsHermitian) ∧ (∀ k a b, (hubSolver.ekMF k a b).im = 0) ∧
      (∀ a b c d, hubSolver.U c d a b = hubSolver.U a b c d) ∧
      (∀ a b c d, hubSolver.U b a d c = hubSolver.U a b c d) ∧
      (∀ X0 : Operators.T4 2, (∀ a b c d, Tendsto (fun eps =>
        (hfrOf eig hubSolver.U (baseInit hubSolver eps)).chi0 a b c d) (𝓝[≠] 0) (𝓝 (X0 a b c d))) →
        IsUnit (1 - toMat X0 * toMat hubSolver.U).det) ∧
      (∀ k, hubSolver.ekMF k = 0 + HartreeFock.meanField hubSolver.U (ρ 0)) ∧
      (∀ a b, DifferentiableAt ℝ (fun t => ρ t a b) 0) ∧
      (∀ᶠ t : ℝ in 𝓝 0, SelfConsistent (κ := Fin 1) hubSolver.beta hubSolver.mu (fun _ => 0) hubSolver.U
        ((t : ℂ) • 1) (ρ t)) := by
  obtain ⟨x, hx0, hxd, hx⟩ := hub_branch
  have hherm : ∀ k, (hubSolver.ekMF k).IsHermitian := by
    intro k
    simp [hubSolver, Matrix.IsHermitian, Matrix.conjTranspose_smul]
  have hreal : ∀ k a b, (hubSolver.ekMF k a b).im = 0 := by
    intro k a b
    simp only [hubSolver, Matrix.smul_apply, Matrix.one_apply]
    split_ifs <;> simp
  refine ⟨fun t => ((x t : ℝ) : ℂ) • 1, hherm, hreal, ?_, ?_, ?_, ?_, ?_, ?_⟩
  · intro a b c d
    fin_cases a <;> fin_cases b <;> fin_cases c <;> fin_cases d <;> simp [hubSolver, hubTensor]
  · intro a b c d
    fin_cases a <;> fin_cases b <;> fin_cases c <;> fin_cases d <;> simp [hubSolver, hubTensor]
  · intro X0 hX0
    have hX : X0 = fun x y c d => if c = y ∧ d = x then 1 / 4 else 0 := by
      funext a b c d
      refine (tendsto_nhds_unique (hX0 a b c d) (chi0_tendsto hs (baseInit hubSolver 0)
        (base_hermitian _ hherm) (base_symm _ hherm hreal) a b c d)).trans ?_
      rw [hub_chi0Lim]
    subst hX
    set A := toMat (fun x y c d : Fin 2 => if c = y ∧ d = x then (1 / 4 : ℂ) else 0) * toMat hubSolver.U with hA
    have hsq : A * A = (1 / 16 : ℂ) • 1 := by
      have hAe : ∀ P Q, A P Q = (1 / 4) * hubTensor P.2 P.1 Q.1 Q.2 := by
        intro P Q
        simp only [hA, Matrix.mul_apply, toMat, hubSolver]
        rw [Finset.sum_eq_single (P.2, P.1)]
        · simp
        · rintro ⟨c, d⟩ _ hne
          rw [if_neg, zero_mul]
          rintro ⟨rfl, rfl⟩
          exact hne rfl
        · simp
      ext ⟨p, q⟩ ⟨r, s⟩
      simp only [Matrix.mul_apply, hAe, Fintype.sum_prod_type, Fin.sum_univ_two, Matrix.smul_apply,
        Matrix.one_apply, Prod.mk.injEq, smul_eq_mul]
      fin_cases p <;> fin_cases q <;> fin_cases r <;> fin_cases s <;> simp [hubTensor] <;> norm_num
    have hunit : (1 - A) * ((16 / 15 : ℂ) • (1 + A)) = 1 := by
      have : (1 - A) * (1 + A) = 1 - A * A := by noncomm_ring
      rw [Matrix.mul_smul, this, hsq, smul_sub, smul_smul, ← sub_smul]
      norm_num
    exact (Matrix.isUnit_iff_isUnit_det _).1 (IsUnit.of_mul_eq_one _ hunit)
  · intro k
    simp only [hx0, zero_add]
    show hubSolver.ekMF k = HartreeFock.meanField hubTensor _
    rw [hub_meanField]
    simp [hubSolver]
  · intro a b
    simp only [Matrix.smul_apply, smul_eq_mul]
    exact (Complex.ofRealCLM.differentiableAt.comp (0 : ℝ) hxd).mul_const _
  · filter_upwards [hx] with t ht
    unfold SelfConsistent
    have : HartreeFock.meanField hubSolver.U (((x t : ℝ) : ℂ) • 1) = ((x t : ℝ) : ℂ) • 1 := hub_meanField _
    simp only [this, Finset.univ_unique, Finset.sum_const, Finset.card_singleton, one_smul,
      Fintype.card_unique, Nat.cast_one, inv_one, zero_add]
    have h1 : ((x t : ℝ) : ℂ) • (1 : Matrix (Fin 2) (Fin 2) ℂ) - (hubSolver.mu : ℂ) • 1 + (t : ℂ) • 1
        = ((x t - 1 / 2 + t : ℝ) : ℂ) • 1 := by
      rw [← sub_smul, ← add_smul]
      congr 1
      simp [hubSolver]
    rw [h1, show hubSolver.beta = 1 from rfl, fermiMatrix_scalar, ← ht]

/-- The hypotheses of `C83_hartree_response` are met by the same atom. -/
example {eig : Lindhard.Eig (Fin 2)} (hs : Lindhard.EigSpec eig) :
    ∃ ρ : ℝ → Fin 2 → ℂ,
      (∀ a b, hubSolver.U b b a a = hubSolver.U a a b b) ∧
      (∀ a b c, a ≠ b → hubSolver.U a b c c = 0) ∧
      (∀ X0 : Matrix (Fin 2) (Fin 2) ℂ, (∀ a c, Tendsto (fun eps =>
        (hrOf eig hubSolver.U (baseInit hubSolver eps)).chi0 a c) (𝓝[≠] 0) (𝓝 (X0 a c))) →
        IsUnit (1 - X0 * extractDensDens hubSolver.U).det) ∧
      (∀ k, hubSolver.ekMF k = 0 + HartreeFock.meanField hubSolver.U (diagonal (ρ 0))) ∧
      (∀ a, DifferentiableAt ℝ (fun t => ρ t a) 0) ∧
      (∀ᶠ t : ℝ in 𝓝 0, ∀ a, ρ t a = ((Fintype.card (Fin 1) : ℂ)⁻¹ • ∑ _k : Fin 1, fermiMatrix hubSolver.beta
        (0 + HartreeFock.meanField hubSolver.U (diagonal (ρ t)) - (hubSolver.mu : ℂ) • 1
          + (t : ℂ) • 1)) a a) := by
  obtain ⟨x, hx0, hxd, hx⟩ := hub_branch
  have hherm : ∀ k, (hubSolver.ekMF k).IsHermitian := by
    intro k
    simp [hubSolver, Matrix.IsHermitian, Matrix.conjTranspose_smul]
  have hdiag : ∀ y : ℂ, (diagonal fun _ : Fin 2 => y) = y • (1 : Matrix (Fin 2) (Fin 2) ℂ) := by
    intro y
    rw [Matrix.smul_one_eq_diagonal]
  refine ⟨fun t _ => ((x t : ℝ) : ℂ), ?_, ?_, ?_, ?_, ?_, ?_⟩
  · intro a b
    fin_cases a <;> fin_cases b <;> simp [hubSolver, hubTensor]
  · intro a b c hab
    fin_cases a <;> fin_cases b <;> fin_cases c <;> simp_all [hubSolver, hubTensor]
  · intro X0 hX0
    have hX : ∀ a c, X0 a c = if c = a then 1 / 4 else 0 := by
      intro a c
      refine (tendsto_nhds_unique (hX0 a c) (chi0ab_tendsto hs (baseInit hubSolver 0)
        (base_hermitian _ hherm) a c)).trans ?_
      simp only [chi0abLim, Finset.univ_unique, Finset.sum_singleton, Fintype.card_unique, Nat.cast_one,
        div_one]
      have : (baseInit hubSolver 0).ek default = 0 := hub_base
      rw [this, dFermi_zero]
      simp only [Matrix.smul_apply, unit, smul_eq_mul, baseInit, hubSolver]
      split_ifs <;> simp_all
      norm_num
    rw [Matrix.det_fin_two]
    simp [Matrix.mul_apply, Fin.sum_univ_two, hX, extractDensDens, hubSolver, hubTensor]
    norm_num
  · intro k
    simp only [hx0, zero_add, hdiag]
    show hubSolver.ekMF k = HartreeFock.meanField hubTensor _
    rw [hub_meanField]
    simp [hubSolver]
  · intro a
    exact Complex.ofRealCLM.differentiableAt.comp (0 : ℝ) hxd
  · filter_upwards [hx] with t ht a
    have : HartreeFock.meanField hubSolver.U (((x t : ℝ) : ℂ) • 1) = ((x t : ℝ) : ℂ) • 1 := hub_meanField _
    simp only [hdiag, this, Finset.univ_unique, Finset.sum_const, Finset.card_singleton, one_smul,
      Fintype.card_unique, Nat.cast_one, inv_one, zero_add]
    have h1 : ((x t : ℝ) : ℂ) • (1 : Matrix (Fin 2) (Fin 2) ℂ) - (hubSolver.mu : ℂ) • 1 + (t : ℂ) • 1
        = ((x t - 1 / 2 + t : ℝ) : ℂ) • 1 := by
      rw [← sub_smul, ← add_smul]
      congr 1
      simp [hubSolver]
    rw [h1, show hubSolver.beta = 1 from rfl, fermiMatrix_scalar, ← ht]
    simp

end Verif.HfResponse
