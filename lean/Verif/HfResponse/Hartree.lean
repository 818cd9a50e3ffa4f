import Verif.HfResponse.Props

/-!
# Response in the Hartree approximation, and the equations solved by both classes

C83 for `HartreeResponse`, which also holds for complex dispersions, and the Bethe-Salpeter type equations of
both classes at every step.
-/

noncomputable section

namespace Verif.HfResponse

open Matrix Filter Topology
open scoped Matrix.Norms.Operator

variable {n : ℕ} {κ : Type*} [Fintype κ]

set_option linter.unusedSectionVars false

/-- C83 (equation): at every step the response tensor of `HartreeFockResponse` solves
`χ = χ0 + χ0 U χ`, and no other tensor does. -/
theorem C83_hf_equation (eig : Lindhard.Eig (Fin n)) (U : Operators.T4 n) (b : Base n κ)
    (hu : IsUnit (1 - toMat (hfrOf eig U b).chi0 * toMat U).det) (X : Operators.T4 n) :
    (∀ p q r s, X p q r s = (hfrOf eig U b).chi0 p q r s
      + ∑ i, ∑ j, ∑ k, ∑ l, (hfrOf eig U b).chi0 p q i j * U i j k l * X k l r s)
    ↔ X = (hfrOf eig U b).chi := by
  set C := toMat (hfrOf eig U b).chi0 with hC
  set V := toMat U with hV
  have hchi : toMat (hfrOf eig U b).chi = (1 - C * V)⁻¹ * C := rfl
  have hsum : ∀ p q r s, ∑ i, ∑ j, ∑ k, ∑ l, (hfrOf eig U b).chi0 p q i j * U i j k l * X k l r s
      = (C * V * toMat X) (p, q) (r, s) := by
    intro p q r s
    rw [sum4_pair, Matrix.mul_assoc]
    simp only [Matrix.mul_apply, Finset.mul_sum]
    refine Finset.sum_congr rfl fun A _ => Finset.sum_congr rfl fun B _ => ?_
    simp only [hC, hV, toMat]
    ring
  have hiff : (∀ p q r s, X p q r s = (hfrOf eig U b).chi0 p q r s
      + ∑ i, ∑ j, ∑ k, ∑ l, (hfrOf eig U b).chi0 p q i j * U i j k l * X k l r s)
      ↔ toMat X = C + C * V * toMat X := by
    constructor
    · intro h
      ext A B
      rw [Matrix.add_apply, ← hsum]
      exact h A.1 A.2 B.1 B.2
    · intro h p q r s
      rw [hsum]
      exact congrFun (congrFun h (p, q)) (r, s)
  rw [hiff]
  constructor
  · intro h
    have h1 : (1 - C * V) * toMat X = C := by
      rw [sub_mul, one_mul, sub_eq_iff_eq_add]; exact h
    have h2 : toMat X = (1 - C * V)⁻¹ * C := by
      have h3 := congrArg (fun M => (1 - C * V)⁻¹ * M) h1
      simpa only [Matrix.nonsing_inv_mul_cancel_left _ _ hu] using h3
    funext p q r s
    have := congrFun (congrFun (h2.trans hchi.symm) (p, q)) (r, s)
    exact this
  · rintro rfl
    rw [hchi]
    have h1 : (1 - C * V) * ((1 - C * V)⁻¹ * C) = C := Matrix.mul_nonsing_inv_cancel_left _ _ hu
    rw [sub_mul, one_mul, sub_eq_iff_eq_add] at h1
    exact h1

/-- C83 (equation), Hartree: `χ = χ0 + χ0 U χ` for the density response, uniquely. -/
theorem C83_hartree_equation (eig : Lindhard.Eig (Fin n)) (U : Operators.T4 n) (b : Base n κ)
    (hu : IsUnit (1 - (hrOf eig U b).chi0 * extractDensDens U).det) (X : Matrix (Fin n) (Fin n) ℂ) :
    (∀ p r, X p r = (hrOf eig U b).chi0 p r
      + ∑ i, ∑ k, (hrOf eig U b).chi0 p i * U i i k k * X k r)
    ↔ X = (hrOf eig U b).chi := by
  set C := (hrOf eig U b).chi0 with hC
  set V := extractDensDens U with hV
  have hu' : IsUnit (1 - V * C).det := by rw [Matrix.det_one_sub_mul_comm]; exact hu
  have hchi : (hrOf eig U b).chi = C * (1 - V * C)⁻¹ := rfl
  have hsum : ∀ p r, ∑ i, ∑ k, C p i * U i i k k * X k r = (C * V * X) p r := by
    intro p r
    rw [Matrix.mul_assoc]
    simp only [Matrix.mul_apply, Finset.mul_sum]
    refine Finset.sum_congr rfl fun i _ => Finset.sum_congr rfl fun k _ => ?_
    simp only [hV, extractDensDens]
    ring
  simp only [hsum]
  have hiff : (∀ p r, X p r = C p r + (C * V * X) p r) ↔ X = C + C * V * X :=
    ⟨fun h => by ext p r; exact h p r, fun h p r => congrFun (congrFun h p) r⟩
  rw [hiff, hchi]
  have push : (1 - C * V) * (C * (1 - V * C)⁻¹) = C := by
    rw [← Matrix.mul_assoc, show (1 - C * V) * C = C * (1 - V * C) by noncomm_ring,
      Matrix.mul_nonsing_inv_cancel_right _ _ hu']
  constructor
  · intro h
    have h1 : (1 - C * V) * X = C := by
      rw [sub_mul, one_mul, sub_eq_iff_eq_add]; exact h
    have h2 := congrArg (fun M => (1 - C * V)⁻¹ * M) (h1.trans push.symm)
    simpa only [Matrix.nonsing_inv_mul_cancel_left _ _ hu] using h2
  · rintro rfl
    rw [sub_mul, one_mul, sub_eq_iff_eq_add] at push
    exact push

/-! ## Hartree: self-consistent response -/

/-- limit of `chi0_ab` for a vanishing step -/
def chi0abLim (b : Base n κ) : Matrix (Fin n) (Fin n) ℂ := fun a c =>
  -((∑ k, dFermi b.beta (b.ek k) (unit a a) c c) / (Fintype.card κ : ℂ))

theorem unit_diag_herm (a : Fin n) : (unit a a).IsHermitian := unit_conjTranspose a a

theorem chi0ab_tendsto {eig : Lindhard.Eig (Fin n)} (hs : Lindhard.EigSpec eig) (b : Base n κ)
    (hk : ∀ k, (b.ek k).IsHermitian) (a c : Fin n) :
    Tendsto (fun eps => chi0ab eig (b.withEps eps) a c) (𝓝[≠] 0) (𝓝 (chi0abLim b a c)) := by
  refine Tendsto.neg (Tendsto.div_const (tendsto_finsetSum _ fun k _ => ?_) _)
  exact ((continuous_id.matrix_elem c c).tendsto _).comp (drhoK_tendsto hs b k (hk k) (unit_diag_herm a))

/-- C83 (Hartree). Let `ρ(t)` be a differentiable branch of self-consistent Hartree densities (the density
matrix fed back is diagonal) in the diagonal field `t · op1` at fixed chemical potential, for an interaction
whose Hartree field is diagonal. If the static response does not diverge, the Hartree response tends for a
vanishing step to minus the derivative of the self-consistent average of `op2`. The dispersion may be
complex. -/
theorem C83_hartree_response {eig : Lindhard.Eig (Fin n)} (hs : Lindhard.EigSpec eig)
    (s : Solver n κ) (hk : ∀ k, (s.ekMF k).IsHermitian)
    (hU : ∀ a b, s.U b b a a = s.U a a b b) (hU' : ∀ a b c, a ≠ b → s.U a b c c = 0)
    (hdet : ∀ X0 : Matrix (Fin n) (Fin n) ℂ, (∀ a c, Tendsto (fun eps =>
        (hrOf eig s.U (baseInit s eps)).chi0 a c) (𝓝[≠] 0) (𝓝 (X0 a c))) →
      IsUnit (1 - X0 * extractDensDens s.U).det)
    (e : κ → Matrix (Fin n) (Fin n) ℂ) (op1 op2 : Matrix (Fin n) (Fin n) ℂ)
    (h1 : diagonalOp op1) (h2 : diagonalOp op2)
    (ρ : ℝ → Fin n → ℂ)
    (hmf : ∀ k, s.ekMF k = e k + HartreeFock.meanField s.U (diagonal (ρ 0)))
    (hd : ∀ a, DifferentiableAt ℝ (fun t => ρ t a) 0)
    (hsc : ∀ᶠ t : ℝ in 𝓝 0, ∀ a, ρ t a = ((Fintype.card κ : ℂ)⁻¹ • ∑ k, fermiMatrix s.beta
      (e k + HartreeFock.meanField s.U (diagonal (ρ t)) - (s.mu : ℂ) • 1 + (t : ℂ) • op1)) a a) :
    ∃ (L : ℂ) (g : ℝ → ℂ), HasDerivAt (fun t : ℝ => ∑ a, ρ t a * op2 a a) (-L) 0 ∧
      (∀ eps, hrResponse (hrOf eig s.U (baseInit s eps)) op1 op2 = .ok (g eps)) ∧
      Tendsto g (𝓝[≠] 0) (𝓝 L) := by
  have hk' := base_hermitian s hk
  set X := chi0abLim (baseInit s 0) with hX
  set V := extractDensDens s.U with hV
  have hu : IsUnit (1 - X * V).det := hdet _ fun a c => chi0ab_tendsto hs (baseInit s 0) hk' a c
  have hu' : IsUnit (1 - V * X).det := by rw [Matrix.det_one_sub_mul_comm]; exact hu
  set C := X * (1 - V * X)⁻¹ with hC
  refine ⟨∑ a, ∑ b, op1 a a * C a b * op2 b b,
    fun eps => ∑ a, ∑ b, op1 a a * (hrOf eig s.U (baseInit s eps)).chi a b * op2 b b, ?_, ?_, ?_⟩
  · let ρ' : Fin n → ℂ := fun a => deriv (fun t => ρ t a) 0
    have hρ' : ∀ a, HasDerivAt (fun t => ρ t a) (ρ' a) 0 := fun a => (hd a).hasDerivAt
    have hD : ∀ (f : ℝ → Fin n → ℂ) (f' : Fin n → ℂ), (∀ a, HasDerivAt (fun t => f t a) (f' a) 0) →
        ∀ a b, HasDerivAt (fun t => (diagonal (f t) : Matrix (Fin n) (Fin n) ℂ) a b)
          ((diagonal f' : Matrix (Fin n) (Fin n) ℂ) a b) 0 := by
      intro f f' hf a b
      by_cases hab : a = b
      · subst hab; simp only [diagonal_apply_eq]; exact hf a
      · simp only [diagonal_apply_ne _ hab]; exact hasDerivAt_const _ _
    have hM : HasDerivAt (fun t => HartreeFock.meanField s.U (diagonal (ρ t)))
        (HartreeFock.meanField s.U (diagonal ρ')) 0 := by
      refine hasDerivAt_matrix fun b a => ?_
      simp only [HartreeFock.meanField]
      exact HasDerivAt.fun_sum fun c _ => HasDerivAt.fun_sum fun d _ => (hD ρ ρ' hρ' c d).const_mul _
    have ho : HasDerivAt (fun t : ℝ => (t : ℂ) • op1) op1 0 := by
      have h1 : HasDerivAt (fun t : ℝ => (t : ℂ)) 1 0 := Complex.ofRealCLM.hasDerivAt
      exact (h1.smul_const op1).congr_deriv (by simp)
    have hF : ∀ k, HasDerivAt (fun t : ℝ => fermiMatrix s.beta
        (e k + HartreeFock.meanField s.U (diagonal (ρ t)) - (s.mu : ℂ) • 1 + (t : ℂ) • op1))
        (dFermi s.beta ((baseInit s 0).ek k) (HartreeFock.meanField s.U (diagonal ρ') + op1)) 0 := by
      intro k
      have hf : HasFDerivAt (fermiMatrix (n := n) s.beta)
          ((dFermi s.beta ((baseInit s 0).ek k)).restrictScalars ℝ)
          (e k + HartreeFock.meanField s.U (diagonal (ρ 0)) - (s.mu : ℂ) • 1 + ((0 : ℝ) : ℂ) • op1) := by
        rw [Complex.ofReal_zero, zero_smul, add_zero, ← hmf]
        exact (hasFDerivAt_fermi s.beta (hk' k)).restrictScalars ℝ
      exact hf.comp_hasDerivAt (0 : ℝ) (((hM.const_add (e k)).sub_const _).add ho)
    have hS := (HasDerivAt.fun_sum (u := Finset.univ) fun k _ => hF k).const_smul ((Fintype.card κ : ℂ)⁻¹)
    have hel : ∀ a, HasDerivAt (fun t : ℝ => ((Fintype.card κ : ℂ)⁻¹ • ∑ k, fermiMatrix s.beta
        (e k + HartreeFock.meanField s.U (diagonal (ρ t)) - (s.mu : ℂ) • 1 + (t : ℂ) • op1)) a a)
        (((Fintype.card κ : ℂ)⁻¹ • ∑ k, dFermi s.beta ((baseInit s 0).ek k)
          (HartreeFock.meanField s.U (diagonal ρ') + op1)) a a) 0 := by
      intro a
      let Lc : Matrix (Fin n) (Fin n) ℂ →L[ℝ] ℂ :=
        LinearMap.toContinuousLinearMap (Matrix.entryLinearMap ℝ ℂ a a)
      exact Lc.hasFDerivAt.comp_hasDerivAt (0 : ℝ) hS
    -- the linearised equation
    have hlin : ∀ c, ρ' c = ((Fintype.card κ : ℂ)⁻¹ • ∑ k, dFermi s.beta ((baseInit s 0).ek k)
        (HartreeFock.meanField s.U (diagonal ρ') + op1)) c c := by
      intro c
      exact ((hρ' c).congr_of_eventuallyEq (hsc.mono fun t ht => (ht c).symm)).unique (hel c)
    have hMd : HartreeFock.meanField s.U (diagonal ρ') + op1
        = ∑ a, (op1 a a - V.mulVec ρ' a) • unit a a := by
      ext b a
      simp only [Matrix.add_apply, HartreeFock.meanField, Matrix.sum_apply, Matrix.smul_apply, unit,
        smul_eq_mul, mul_ite, mul_one, mul_zero]
      have hin : ∑ c, ∑ d, -s.U a b c d * (diagonal ρ' : Matrix (Fin n) (Fin n) ℂ) c d
          = -∑ c, s.U a b c c * ρ' c := by
        rw [← Finset.sum_neg_distrib]
        refine Finset.sum_congr rfl fun c _ => ?_
        rw [Finset.sum_eq_single c]
        · rw [diagonal_apply_eq]; ring
        · intro d _ hdc; rw [diagonal_apply_ne _ hdc.symm, mul_zero]
        · simp
      rw [hin]
      by_cases hab : b = a
      · subst hab
        have hone : (∑ x, if b = x ∧ b = x then op1 x x - V.mulVec ρ' x else 0)
            = op1 b b - V.mulVec ρ' b := by
          rw [Finset.sum_eq_single b]
          · rw [if_pos ⟨rfl, rfl⟩]
          · intro x _ hx; rw [if_neg fun h => hx h.1.symm]
          · simp
        rw [hone]
        simp only [Matrix.mulVec, dotProduct, hV, extractDensDens]
        ring
      · rw [Finset.sum_eq_zero, Finset.sum_eq_zero, h1 b a hab]
        · simp
        · intro x _; rw [if_neg fun h => hab (h.1.trans h.2.symm)]
        · intro c _; rw [hU' a b c fun h => hab h.symm, zero_mul]
    have hr : ρ' = -(Matrix.vecMul ((fun a => op1 a a) - V.mulVec ρ') X) := by
      funext c
      rw [hlin c, hMd]
      simp only [map_sum, map_smul, Matrix.smul_apply, Matrix.sum_apply, smul_eq_mul, Pi.neg_apply,
        Matrix.vecMul, dotProduct, Pi.sub_apply, hX, chi0abLim]
      rw [Finset.sum_comm, Finset.mul_sum, ← Finset.sum_neg_distrib]
      refine Finset.sum_congr rfl fun a _ => ?_
      rw [← Finset.mul_sum]
      have : (baseInit s 0).beta = s.beta := rfl
      rw [this]
      ring
    have hsym : Vᵀ = V := by
      ext a b
      exact hU a b
    have hVr : V.mulVec ρ' = Matrix.vecMul ρ' V := by
      conv_lhs => rw [← hsym, Matrix.mulVec_transpose]
    have hsolve : ρ' = -(Matrix.vecMul (fun a => op1 a a) C) := by
      rw [hVr, Matrix.sub_vecMul, Matrix.vecMul_vecMul, neg_sub] at hr
      have h5 : Matrix.vecMul ρ' (1 - V * X) = -(Matrix.vecMul (fun a => op1 a a) X) := by
        rw [Matrix.vecMul_sub, Matrix.vecMul_one, sub_eq_iff_eq_add, neg_add_eq_sub]
        exact hr
      have h6 := congrArg (fun v => Matrix.vecMul v (1 - V * X)⁻¹) h5
      simp only [Matrix.vecMul_vecMul, Matrix.neg_vecMul] at h6
      rwa [Matrix.mul_nonsing_inv _ hu', Matrix.vecMul_one] at h6
    have htr : HasDerivAt (fun t : ℝ => ∑ a, ρ t a * op2 a a) (∑ a, ρ' a * op2 a a) 0 :=
      HasDerivAt.fun_sum fun a _ => (hρ' a).mul_const _
    refine htr.congr_deriv ?_
    rw [hsolve, Finset.sum_comm, ← Finset.sum_neg_distrib]
    refine Finset.sum_congr rfl fun b _ => ?_
    simp only [Pi.neg_apply, Matrix.vecMul, dotProduct, neg_mul, Finset.sum_mul]
  · intro eps
    simp [hrResponse, h1, h2]
  · have hc1 : Tendsto (fun eps => (hrOf eig s.U (baseInit s eps)).chi0) (𝓝[≠] 0) (𝓝 X) := by
      refine tendsto_pi_nhds.2 fun A => tendsto_pi_nhds.2 fun B => ?_
      exact chi0ab_tendsto hs (baseInit s 0) hk' A B
    have hc2 : Tendsto (fun eps => 1 - V * (hrOf eig s.U (baseInit s eps)).chi0) (𝓝[≠] 0)
        (𝓝 (1 - V * X)) := tendsto_const_nhds.sub (hc1.const_mul _)
    have hcont : ContinuousAt (fun M : Matrix (Fin n) (Fin n) ℂ => M⁻¹) (1 - V * X) := by
      have hu2 : IsUnit (1 - V * X) := (Matrix.isUnit_iff_isUnit_det _).2 hu'
      have := NormedRing.inverse_continuousAt hu2.unit
      rw [IsUnit.unit_spec] at this
      refine this.congr (Eventually.of_forall fun M => ?_)
      exact (Matrix.nonsing_inv_eq_ringInverse M).symm
    have hc3 := hc1.mul (hcont.tendsto.comp hc2)
    refine tendsto_finsetSum _ fun a _ => tendsto_finsetSum _ fun b _ => ?_
    exact ((((continuous_id.matrix_elem a b).tendsto _).comp hc3).const_mul _).mul_const _

/-- C83: operators that are not diagonal are refused by the Hartree response. -/
theorem C83_hartree_refuses (r : Hr n κ) (op1 op2 : Matrix (Fin n) (Fin n) ℂ) :
    (∃ v, hrResponse r op1 op2 = .ok v) ↔ diagonalOp op1 ∧ diagonalOp op2 := by
  unfold hrResponse
  by_cases h1 : diagonalOp op1 <;> by_cases h2 : diagonalOp op2 <;> simp [h1, h2]

/-- C82 (Hartree), at every step: the bare response to a field on one orbital is minus the central difference of the average of
`op2` in this field and in the opposite one; the first operator is the field. Operators that are not diagonal are refused. -/
theorem C82_hartree_bare_step (eig : Lindhard.Eig (Fin n)) (U : Operators.T4 n) (b : Base n κ) (op1 op2 : Matrix (Fin n) (Fin n) ℂ) :
    ((∃ v, hrBareResponse (hrOf eig U b) op1 op2 = .ok v) ↔ diagonalOp op1 ∧ diagonalOp op2) ∧
      ∀ x, diagonalOp op2 → hrBareResponse (hrOf eig U b) (unit x x) op2
        = .ok (-((∑ k, ∑ c, (rhoOf eig b.beta (b.ek k + (b.eps : ℂ) • unit x x) c c
          - rhoOf eig b.beta (b.ek k - (b.eps : ℂ) • unit x x) c c) / (2 * (b.eps : ℂ)) * op2 c c) / (Fintype.card κ : ℂ))) := by
  constructor
  · unfold hrBareResponse
    by_cases h1 : diagonalOp op1 <;> by_cases h2 : diagonalOp op2 <;> simp [h1, h2]
  · intro x h2
    have h1 : diagonalOp (unit x x) := by
      intro a c hac
      unfold unit
      exact if_neg fun h => hac (h.1.trans h.2.symm)
    unfold hrBareResponse
    rw [if_neg (not_not.2 h1), if_neg (not_not.2 h2)]
    congr 1
    rw [Finset.sum_eq_single x]
    · rw [Finset.sum_comm (s := (Finset.univ : Finset κ)), Finset.sum_div, ← Finset.sum_neg_distrib]
      refine Finset.sum_congr rfl fun c _ => ?_
      have hx : unit x x x x = 1 := if_pos ⟨rfl, rfl⟩
      rw [hx, one_mul]
      change -((∑ k, drhoK eig b (unit x x) k c c) / (Fintype.card κ : ℂ)) * op2 c c = _
      rw [neg_mul, div_mul_eq_mul_div, Finset.sum_mul]
      rfl
    · intro a _ ha
      refine Finset.sum_eq_zero fun c _ => ?_
      have hx : unit x x a a = 0 := if_neg fun h => ha h.1
      rw [hx, zero_mul, zero_mul]
    · simp

/-- C82 (Hartree): for a vanishing step the bare response tends to minus the derivative of the thermal average of `op2` in the field
`t · op1`. The dispersion may be complex. -/
theorem C82_hartree_bare {eig : Lindhard.Eig (Fin n)} (hs : Lindhard.EigSpec eig) (s : Solver n κ)
    (hk : ∀ k, (s.ekMF k).IsHermitian) (op1 op2 : Matrix (Fin n) (Fin n) ℂ) (h1 : diagonalOp op1) (h2 : diagonalOp op2) :
    ∃ (L : ℂ) (g : ℝ → ℂ), HasDerivAt (fun t : ℝ =>
        average s.beta (fun k => s.ekMF k - (s.mu : ℂ) • 1 + (t : ℂ) • op1) op2) (-L) 0 ∧
      (∀ eps, hrBareResponse (hrOf eig s.U (baseInit s eps)) op1 op2 = .ok (g eps)) ∧ Tendsto g (𝓝[≠] 0) (𝓝 L) := by
  have hk' := base_hermitian s hk
  have hop : op1 = ∑ a, op1 a a • unit a a := by
    ext i j
    simp only [Matrix.sum_apply, Matrix.smul_apply, unit, smul_eq_mul, mul_ite, mul_one, mul_zero]
    by_cases hij : i = j
    · subst hij
      rw [Finset.sum_eq_single i]
      · rw [if_pos ⟨rfl, rfl⟩]
      · intro x _ hx
        rw [if_neg fun h => hx h.1.symm]
      · simp
    · rw [h1 i j hij, Finset.sum_eq_zero]
      intro x _
      rw [if_neg fun h => hij (h.1.trans h.2.symm)]
  refine ⟨∑ a, ∑ c, op1 a a * chi0abLim (baseInit s 0) a c * op2 c c,
    fun eps => ∑ a, ∑ c, op1 a a * (hrOf eig s.U (baseInit s eps)).chi0 a c * op2 c c, ?_, fun eps => ?_, ?_⟩
  · refine (average_hasDerivAt s.beta _ hk' op1 op2).congr_deriv ?_
    have htr : ∀ M : Matrix (Fin n) (Fin n) ℂ, Matrix.trace (M * op2) = ∑ c, M c c * op2 c c := by
      intro M
      simp only [Matrix.trace, Matrix.diag, Matrix.mul_apply]
      refine Finset.sum_congr rfl fun c _ => ?_
      rw [Finset.sum_eq_single c]
      · intro d _ hd
        rw [h2 d c hd, mul_zero]
      · simp
    have hexp : ∀ k c, dFermi s.beta ((baseInit s 0).ek k) op1 c c
        = ∑ a, op1 a a * dFermi s.beta ((baseInit s 0).ek k) (unit a a) c c := by
      intro k c
      conv_lhs => rw [hop]
      rw [map_sum, Matrix.sum_apply]
      refine Finset.sum_congr rfl fun a _ => ?_
      rw [map_smul, Matrix.smul_apply, smul_eq_mul]
    have hsum : ∀ (D : κ → Fin n → Fin n → ℂ), (∑ k, ∑ c, (∑ a, op1 a a * D k a c) * op2 c c) / (Fintype.card κ : ℂ)
        = -∑ a, ∑ c, op1 a a * -((∑ k, D k a c) / (Fintype.card κ : ℂ)) * op2 c c := by
      intro D
      have h3 : ∀ a c, op1 a a * -((∑ k, D k a c) / (Fintype.card κ : ℂ)) * op2 c c
          = -((∑ k, op1 a a * D k a c * op2 c c) / (Fintype.card κ : ℂ)) := by
        intro a c
        rw [← Finset.sum_mul, ← Finset.mul_sum]
        ring
      simp only [h3, Finset.sum_neg_distrib, neg_neg, ← Finset.sum_div, Finset.sum_mul]
      congr 1
      rw [Finset.sum_comm]
      conv_rhs => rw [Finset.sum_comm]
      refine Finset.sum_congr rfl fun c _ => ?_
      rw [Finset.sum_comm]
    simp only [htr]
    refine Eq.trans ?_ (hsum fun k a c => dFermi s.beta ((baseInit s 0).ek k) (unit a a) c c)
    simp only [← hexp]
  · unfold hrBareResponse
    rw [if_neg (not_not.2 h1), if_neg (not_not.2 h2)]
  · refine tendsto_finsetSum _ fun a _ => tendsto_finsetSum _ fun c _ => ?_
    exact ((chi0ab_tendsto hs (baseInit s 0) hk' a c).const_mul _).mul_const _

end Verif.HfResponse
