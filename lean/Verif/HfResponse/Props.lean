import Verif.HfResponse.Lemmas
import Verif.HartreeFock.Props
import Mathlib.Analysis.Normed.Ring.Units
import Mathlib.Analysis.Calculus.InverseFunctionTheorem.Deriv
import Mathlib.Analysis.SpecialFunctions.Trigonometric.Deriv

/-!
# Properties of the Hartree-Fock response functions

C82: the bare response is minus the derivative of a thermal average with respect to a field.
C83: the response is minus the derivative of the self-consistent average with respect to a field.
C84: the step given by the user is used, and the momentum resolved bubble can be read out.
-/

noncomputable section

namespace Verif.HfResponse

open Matrix Filter Topology
open scoped Matrix.Norms.Operator

variable {n : ℕ} {κ : Type*} [Fintype κ]

set_option linter.unusedSectionVars false

/-! ## Specification -/

/-- Thermal average per unit cell of a one-body operator `op` in the non-interacting system with Hamiltonian
`h k` (chemical potential subtracted). -/
def average (beta : ℝ) (h : κ → Matrix (Fin n) (Fin n) ℂ) (op : Matrix (Fin n) (Fin n) ℂ) : ℂ :=
  (∑ k, Matrix.trace (fermiMatrix beta (h k) * op)) / (Fintype.card κ : ℂ)

/-- `ρ` is a self-consistent density matrix of the mean field equations for the dispersion `e`, interaction
tensor `U`, chemical potential `mu` in an external field `F`. -/
def SelfConsistent (beta mu : ℝ) (e : κ → Matrix (Fin n) (Fin n) ℂ) (U : Operators.T4 n)
    (F ρ : Matrix (Fin n) (Fin n) ℂ) : Prop :=
  ρ = (Fintype.card κ : ℂ)⁻¹ • ∑ k, fermiMatrix beta
    (e k + HartreeFock.meanField U ρ - (mu : ℂ) • 1 + F)

/-! ## Limits -/

/-- limit of the tensor `chi0_abcd` for a vanishing step -/
def chi0Lim (b : Base n κ) : Operators.T4 n := fun x y c d =>
  (∑ k, -(dFermi b.beta (b.ek k) (unit y x) c d)) / (Fintype.card κ : ℂ)

theorem chi0_tendsto {eig : Lindhard.Eig (Fin n)} (hs : Lindhard.EigSpec eig) (b : Base n κ)
    (hk : ∀ k, (b.ek k).IsHermitian) (ht : ∀ k, (b.ek k)ᵀ = b.ek k) (x y c d : Fin n) :
    Tendsto (fun eps => chi0Abcd eig (b.withEps eps) x y c d) (𝓝[≠] 0) (𝓝 (chi0Lim b x y c d)) :=
  (tendsto_finsetSum _ fun k _ => chi0K_tendsto hs b k (hk k) (ht k) x y c d).div_const _

theorem matrix_eq_sum (X : Matrix (Fin n) (Fin n) ℂ) : X = ∑ a, ∑ b, X a b • unit a b := by
  ext i j
  simp only [Matrix.sum_apply, Matrix.smul_apply, unit, smul_eq_mul, mul_ite, mul_one, mul_zero]
  rw [Finset.sum_eq_single i, Finset.sum_eq_single j]
  · simp
  · intro b _ hb; rw [if_neg fun h => hb h.2.symm]
  · simp
  · intro a _ ha; exact Finset.sum_eq_zero fun b _ => if_neg fun h => ha h.1.symm
  · simp

theorem dFermi_sum (beta : ℝ) (h X : Matrix (Fin n) (Fin n) ℂ) (c d : Fin n) :
    dFermi beta h X c d = ∑ a, ∑ b, X a b * dFermi beta h (unit a b) c d := by
  conv_lhs => rw [matrix_eq_sum X]
  simp only [map_sum, map_smul, Matrix.sum_apply, Matrix.smul_apply, smul_eq_mul]

theorem sum4_pair (f : Fin n → Fin n → Fin n → Fin n → ℂ) :
    (∑ a, ∑ b, ∑ c, ∑ d, f a b c d) = ∑ A : Fin n × Fin n, ∑ B : Fin n × Fin n, f A.1 A.2 B.1 B.2 := by
  simp only [Fintype.sum_prod_type]

/-- contraction of the limit with two operators -/
theorem chi0Lim_contract (b : Base n κ) (hk : ∀ k, (b.ek k).IsHermitian) (ht : ∀ k, (b.ek k)ᵀ = b.ek k)
    (op1 op2 : Matrix (Fin n) (Fin n) ℂ) :
    ∑ x, ∑ y, ∑ c, ∑ d, op1 x y * chi0Lim b x y c d * op2 c d
      = -((∑ k, Matrix.trace (dFermi b.beta (b.ek k) op1 * op2)) / (Fintype.card κ : ℂ)) := by
  have h1 : ∀ k, Matrix.trace (dFermi b.beta (b.ek k) op1 * op2)
      = ∑ A : Fin n × Fin n, ∑ B : Fin n × Fin n,
        op1 A.1 A.2 * dFermi b.beta (b.ek k) (unit A.2 A.1) B.1 B.2 * op2 B.1 B.2 := by
    intro k
    have hT : ∀ c d, dFermi b.beta (b.ek k) op1 d c = dFermi b.beta (b.ek k) op1ᵀ c d := by
      intro c d
      rw [dFermi_transpose _ (hk k) (ht k)]
      rfl
    simp only [Matrix.trace, Matrix.diag_apply, Matrix.mul_apply, hT]
    rw [Finset.sum_comm, ← Fintype.sum_prod_type' (f := fun c d => dFermi b.beta (b.ek k) op1ᵀ c d * op2 c d),
      Finset.sum_comm]
    refine Finset.sum_congr rfl fun B _ => ?_
    rw [dFermi_sum, Finset.sum_comm, Fintype.sum_prod_type]
    simp only [Finset.sum_mul, Matrix.transpose_apply]
  rw [sum4_pair]
  have h2 : ∀ A B : Fin n × Fin n, op1 A.1 A.2 * chi0Lim b A.1 A.2 B.1 B.2 * op2 B.1 B.2
      = ∑ k, -((op1 A.1 A.2 * dFermi b.beta (b.ek k) (unit A.2 A.1) B.1 B.2 * op2 B.1 B.2)
        / (Fintype.card κ : ℂ)) := by
    intro A B
    simp only [chi0Lim, Finset.sum_div, Finset.mul_sum, Finset.sum_mul]
    exact Finset.sum_congr rfl fun k _ => by ring
  simp only [h2, h1]
  rw [Finset.sum_congr rfl fun A _ => Finset.sum_comm, Finset.sum_comm, Finset.sum_div, ← Finset.sum_neg_distrib]
  refine Finset.sum_congr rfl fun k _ => ?_
  simp only [Finset.sum_div, Finset.sum_neg_distrib]

/-- derivative of a thermal average along a field -/
theorem average_hasDerivAt (beta : ℝ) (h : κ → Matrix (Fin n) (Fin n) ℂ) (hk : ∀ k, (h k).IsHermitian)
    (op1 op2 : Matrix (Fin n) (Fin n) ℂ) :
    HasDerivAt (fun t : ℝ => average beta (fun k => h k + (t : ℂ) • op1) op2)
      ((∑ k, Matrix.trace (dFermi beta (h k) op1 * op2)) / (Fintype.card κ : ℂ)) 0 := by
  unfold average
  refine HasDerivAt.div_const (HasDerivAt.fun_sum fun k _ => ?_) _
  have h1 := hasDerivAt_line beta (hk k) op1
  let L : Matrix (Fin n) (Fin n) ℂ →L[ℝ] ℂ :=
    LinearMap.toContinuousLinearMap ((Matrix.traceLinearMap (Fin n) ℝ ℂ).comp (LinearMap.mulRight ℝ op2))
  exact (L.hasFDerivAt.comp_hasDerivAt (0 : ℝ) h1)

theorem base_hermitian (s : Solver n κ) (hk : ∀ k, (s.ekMF k).IsHermitian) (k : κ) :
    ((baseInit s 0).ek k).IsHermitian :=
  sub_smul_isHermitian (hk k) (Matrix.isHermitian_one (n := Fin n) (α := ℂ)) s.mu

theorem base_symm (s : Solver n κ) (hk : ∀ k, (s.ekMF k).IsHermitian)
    (hreal : ∀ k a b, (s.ekMF k a b).im = 0) (k : κ) : ((baseInit s 0).ek k)ᵀ = (baseInit s 0).ek k := by
  have h1 : (s.ekMF k)ᵀ = s.ekMF k := by
    ext a b
    have := (hk k).apply b a
    rw [Matrix.transpose_apply, ← this]
    exact Complex.conj_eq_iff_im.2 (hreal k a b)
  simp only [baseInit, Matrix.transpose_sub, Matrix.transpose_smul, Matrix.transpose_one, h1]

/-- C82, response to one hermitian field: the entries `[b, a, c, d]` of `_compute_R_abcd` for the parameter `p`
are, in the limit of a small step, minus the derivative of the density matrix element `ρ_cd` with respect to the strength of the field `p E_ab + p^* E_ba`, for every hermitian dispersion. -/
theorem C82_field_response {eig : Lindhard.Eig (Fin n)} (hs : Lindhard.EigSpec eig)
    (s : Solver n κ) (hk : ∀ k, (s.ekMF k).IsHermitian) (p : ℂ) (a b c d : Fin n) :
    ∃ L : ℂ,
      HasDerivAt (fun t : ℝ => average s.beta (fun k => s.ekMF k - (s.mu : ℂ) • 1 + (t : ℂ) •
        (p • Matrix.single a b (1 : ℂ) + (starRingEnd ℂ) p • Matrix.single b a (1 : ℂ)))
          (Matrix.single d c 1)) (-L) 0 ∧
      Tendsto (fun eps => rAbcd eig (baseInit s eps) p b a c d) (𝓝[≠] 0) (𝓝 L) := by
  have hk' := base_hermitian s hk
  have hu : ∀ x y : Fin n, unit x y = Matrix.single x y (1 : ℂ) := by
    intro x y
    ext i j
    simp [unit, Matrix.single_apply, eq_comm]
  have hF : p • Matrix.single a b (1 : ℂ) + (starRingEnd ℂ) p • Matrix.single b a (1 : ℂ) = field p a b := by
    rw [field_eq, hu, hu]
  rw [hF]
  refine ⟨-((∑ k, Matrix.trace (dFermi s.beta ((baseInit s 0).ek k) (field p a b) * Matrix.single d c 1))
    / (Fintype.card κ : ℂ)), ?_, ?_⟩
  · rw [neg_neg]
    exact average_hasDerivAt s.beta _ hk' _ _
  · refine Tendsto.neg ((tendsto_finsetSum _ fun k _ => ?_).div_const _)
    have h := drhoK_tendsto hs (baseInit s 0) k (hk' k) (field_isHermitian p a b)
    have h2 := ((continuous_id.matrix_elem c d).tendsto _).comp h
    rw [Matrix.trace_mul_single, MulOpposite.op_one, one_smul]
    exact h2

/-- C82 (partial: real symmetric mean field dispersion). For every field `op1` and operator `op2` the bare
response tends, for a vanishing finite difference step, to minus the derivative of the thermal average of
`op2` with respect to the strength of the field.

Missing: complex hermitian dispersions, for which the statement is false
(`C82_bare_response_violated`). -/
theorem C82_bare_response_partial {eig : Lindhard.Eig (Fin n)} (hs : Lindhard.EigSpec eig)
    (s : Solver n κ) (hk : ∀ k, (s.ekMF k).IsHermitian) (hreal : ∀ k a b, (s.ekMF k a b).im = 0)
    (op1 op2 : Matrix (Fin n) (Fin n) ℂ) :
    ∃ L : ℂ,
      HasDerivAt (fun t : ℝ =>
        average s.beta (fun k => s.ekMF k - (s.mu : ℂ) • 1 + (t : ℂ) • op1) op2) (-L) 0 ∧
      Tendsto (fun eps => bareResponse (hfrOf eig s.U (baseInit s eps)) op1 op2) (𝓝[≠] 0) (𝓝 L) := by
  have hk' := base_hermitian s hk
  have ht := base_symm s hk hreal
  refine ⟨∑ x, ∑ y, ∑ c, ∑ d, op1 x y * chi0Lim (baseInit s 0) x y c d * op2 c d, ?_, ?_⟩
  · rw [chi0Lim_contract _ hk' ht, neg_neg]
    exact average_hasDerivAt s.beta _ hk' op1 op2
  · refine tendsto_finsetSum _ fun x _ => tendsto_finsetSum _ fun y _ => tendsto_finsetSum _ fun c _ =>
      tendsto_finsetSum _ fun d _ => ?_
    exact ((chi0_tendsto hs (baseInit s 0) hk' ht x y c d).const_mul _).mul_const _

/-! ## Self-consistent response -/

theorem hasDerivAt_matrix {f : ℝ → Matrix (Fin n) (Fin n) ℂ} {f' : Matrix (Fin n) (Fin n) ℂ} {t : ℝ}
    (h : ∀ a b, HasDerivAt (fun s => f s a b) (f' a b) t) : HasDerivAt f f' t := by
  have e : f = fun s => ∑ a, ∑ b, f s a b • unit a b := by
    funext s
    exact matrix_eq_sum (f s)
  rw [e, matrix_eq_sum f']
  exact HasDerivAt.fun_sum fun a _ => HasDerivAt.fun_sum fun b _ => (h a b).smul_const _

theorem meanField_eq (U : Operators.T4 n) (ρ : Matrix (Fin n) (Fin n) ℂ) (x y : Fin n) :
    HartreeFock.meanField U ρ y x = -((toMat U).mulVec (fun B => ρ B.1 B.2) (x, y)) := by
  simp only [HartreeFock.meanField, Matrix.mulVec, dotProduct, toMat, Fintype.sum_prod_type,
    ← Finset.sum_neg_distrib]
  exact Finset.sum_congr rfl fun c _ => Finset.sum_congr rfl fun d _ => by ring

/-- the linearised self-consistency condition -/
theorem linearised (s : Solver n κ) (hk : ∀ k, ((baseInit s 0).ek k).IsHermitian)
    (e : κ → Matrix (Fin n) (Fin n) ℂ) (ρ : ℝ → Matrix (Fin n) (Fin n) ℂ)
    (op1 : Matrix (Fin n) (Fin n) ℂ)
    (hmf : ∀ k, s.ekMF k = e k + HartreeFock.meanField s.U (ρ 0))
    (ρ' : Matrix (Fin n) (Fin n) ℂ) (hd : ∀ a b, HasDerivAt (fun t => ρ t a b) (ρ' a b) 0)
    (hsc : ∀ᶠ t : ℝ in 𝓝 0, SelfConsistent s.beta s.mu e s.U ((t : ℂ) • op1) (ρ t)) :
    ρ' = (Fintype.card κ : ℂ)⁻¹ • ∑ k, dFermi s.beta ((baseInit s 0).ek k)
      (HartreeFock.meanField s.U ρ' + op1) := by
  have h1 : ∀ k, HasDerivAt (fun t : ℝ => e k + HartreeFock.meanField s.U (ρ t) - (s.mu : ℂ) • 1
      + (t : ℂ) • op1) (HartreeFock.meanField s.U ρ' + op1) 0 := by
    intro k
    have hM : HasDerivAt (fun t => HartreeFock.meanField s.U (ρ t)) (HartreeFock.meanField s.U ρ') 0 := by
      refine hasDerivAt_matrix fun b a => ?_
      simp only [HartreeFock.meanField]
      exact HasDerivAt.fun_sum fun c _ => HasDerivAt.fun_sum fun d _ => (hd c d).const_mul _
    have ho : HasDerivAt (fun t : ℝ => (t : ℂ) • op1) op1 0 := by
      have h1 : HasDerivAt (fun t : ℝ => (t : ℂ)) 1 0 := Complex.ofRealCLM.hasDerivAt
      exact (h1.smul_const op1).congr_deriv (by simp)
    exact ((hM.const_add (e k)).sub_const _).add ho
  have h2 : ∀ k, HasDerivAt (fun t : ℝ => fermiMatrix s.beta (e k + HartreeFock.meanField s.U (ρ t)
      - (s.mu : ℂ) • 1 + (t : ℂ) • op1))
      (dFermi s.beta ((baseInit s 0).ek k) (HartreeFock.meanField s.U ρ' + op1)) 0 := by
    intro k
    have hf : HasFDerivAt (fermiMatrix (n := n) s.beta)
        ((dFermi s.beta ((baseInit s 0).ek k)).restrictScalars ℝ)
        (e k + HartreeFock.meanField s.U (ρ 0) - (s.mu : ℂ) • 1 + ((0 : ℝ) : ℂ) • op1) := by
      rw [Complex.ofReal_zero, zero_smul, add_zero, ← hmf]
      exact (hasFDerivAt_fermi s.beta (hk k)).restrictScalars ℝ
    exact hf.comp_hasDerivAt (0 : ℝ) (h1 k)
  have h3 := (HasDerivAt.fun_sum (u := Finset.univ) fun k _ => h2 k).const_smul ((Fintype.card κ : ℂ)⁻¹)
  have h4 : HasDerivAt ρ ρ' 0 := hasDerivAt_matrix hd
  have h5 := h4.congr_of_eventuallyEq (f₁ := fun t : ℝ => (Fintype.card κ : ℂ)⁻¹ • ∑ k,
    fermiMatrix s.beta (e k + HartreeFock.meanField s.U (ρ t) - (s.mu : ℂ) • 1 + (t : ℂ) • op1))
    (hsc.mono fun t ht => ht.symm)
  exact h5.unique h3

/-- matrix RPA expression -/
def rpaMat (X V : Matrix (Fin n × Fin n) (Fin n × Fin n) ℂ) : Matrix (Fin n × Fin n) (Fin n × Fin n) ℂ :=
  (1 - X * V)⁻¹ * X

theorem rpaMat_mul (X V : Matrix (Fin n × Fin n) (Fin n × Fin n) ℂ) (hu : IsUnit (1 - X * V).det) :
    rpaMat X V * (1 - V * X) = X := by
  have h : X * (1 - V * X) = (1 - X * V) * X := by noncomm_ring
  rw [rpaMat, Matrix.mul_assoc, h, Matrix.nonsing_inv_mul_cancel_left _ _ hu]

theorem rpaMat_swap (X V : Matrix (Fin n × Fin n) (Fin n × Fin n) ℂ)
    (hX : ∀ A B, X (Prod.swap A) (Prod.swap B) = X A B) (hV : ∀ A B, V (Prod.swap A) (Prod.swap B) = V A B)
    (A B : Fin n × Fin n) : rpaMat X V (Prod.swap A) (Prod.swap B) = rpaMat X V A B := by
  let σ : Fin n × Fin n ≃ Fin n × Fin n := Equiv.prodComm _ _
  have eX : X.submatrix σ σ = X := by ext A B; exact hX A B
  have eV : V.submatrix σ σ = V := by ext A B; exact hV A B
  have e : (rpaMat X V).submatrix σ σ = rpaMat X V := by
    have h1 : (1 - X * V).submatrix σ σ = 1 - X * V := by
      rw [Matrix.submatrix_sub, Pi.sub_apply, Pi.sub_apply, Matrix.submatrix_one_equiv, ← Matrix.submatrix_mul_equiv X V σ σ σ, eX, eV]
    rw [rpaMat, ← Matrix.submatrix_mul_equiv _ _ σ σ σ, eX, ← Matrix.inv_submatrix_equiv, h1]
  exact congrFun (congrFun e A) B

/-- solution of the linearised equation -/
theorem linear_solve (X V : Matrix (Fin n × Fin n) (Fin n × Fin n) ℂ) (hu : IsUnit (1 - X * V).det)
    (hsym : Vᵀ = V) (r f : Fin n × Fin n → ℂ) (h : r = -(Matrix.vecMul (f - V.mulVec r) X)) :
    r = -(Matrix.vecMul f (rpaMat X V)) := by
  have hu' : IsUnit (1 - V * X).det := by
    rw [Matrix.det_one_sub_mul_comm]; exact hu
  have h1 : V.mulVec r = Matrix.vecMul r V := by
    conv_lhs => rw [← hsym, Matrix.mulVec_transpose]
  rw [h1, Matrix.sub_vecMul, Matrix.vecMul_vecMul] at h
  have h2 : Matrix.vecMul r (1 - V * X) = Matrix.vecMul (-(Matrix.vecMul f (rpaMat X V))) (1 - V * X) := by
    rw [Matrix.neg_vecMul, Matrix.vecMul_vecMul, rpaMat_mul X V hu, Matrix.vecMul_sub, Matrix.vecMul_one]
    conv_lhs => rw [h]
    rw [← h]
    conv_lhs => lhs; rw [h]
    simp
  have h3 := congrArg (fun v => Matrix.vecMul v (1 - V * X)⁻¹) h2
  simp only [Matrix.vecMul_vecMul] at h3
  rwa [Matrix.mul_nonsing_inv _ hu', Matrix.vecMul_one, Matrix.vecMul_one] at h3

/-- the tensor of the response converges when the limiting matrix is invertible -/
theorem chi_tendsto {eig : Lindhard.Eig (Fin n)} (hs : Lindhard.EigSpec eig) (U : Operators.T4 n)
    (b : Base n κ) (hk : ∀ k, (b.ek k).IsHermitian) (ht : ∀ k, (b.ek k)ᵀ = b.ek k)
    (hu : IsUnit (1 - toMat (chi0Lim b) * toMat U).det) (x y c d : Fin n) :
    Tendsto (fun eps => (hfrOf eig U (b.withEps eps)).chi x y c d) (𝓝[≠] 0)
      (𝓝 (rpaMat (toMat (chi0Lim b)) (toMat U) (x, y) (c, d))) := by
  have h1 : Tendsto (fun eps => toMat (chi0Abcd eig (b.withEps eps))) (𝓝[≠] 0) (𝓝 (toMat (chi0Lim b))) := by
    refine tendsto_pi_nhds.2 fun A => tendsto_pi_nhds.2 fun B => ?_
    exact chi0_tendsto hs b hk ht A.1 A.2 B.1 B.2
  have h2 : Tendsto (fun eps => 1 - toMat (chi0Abcd eig (b.withEps eps)) * toMat U) (𝓝[≠] 0)
      (𝓝 (1 - toMat (chi0Lim b) * toMat U)) := tendsto_const_nhds.sub (h1.mul_const _)
  have hc : ContinuousAt (fun M : Matrix (Fin n × Fin n) (Fin n × Fin n) ℂ => M⁻¹)
      (1 - toMat (chi0Lim b) * toMat U) := by
    have hu' : IsUnit (1 - toMat (chi0Lim b) * toMat U) := (Matrix.isUnit_iff_isUnit_det _).2 hu
    have := NormedRing.inverse_continuousAt hu'.unit
    rw [IsUnit.unit_spec] at this
    refine this.congr (Eventually.of_forall fun M => ?_)
    exact (Matrix.nonsing_inv_eq_ringInverse M).symm
  have h3 := (hc.tendsto.comp h2).mul h1
  exact ((continuous_id.matrix_elem (x, y) (c, d)).tendsto _).comp h3

/-- C83 (partial). Let `ρ(t)` be a differentiable branch of self-consistent Hartree-Fock density matrices in
the external field `t · op1` at fixed chemical potential, and let the solver hold the mean field dispersion of
`ρ(0)`. If dispersion and interaction are real and the static response does not diverge, the response tends,
for a vanishing finite difference step, to minus the derivative of the self-consistent average of `op2`
with respect to the strength of the field.

Missing: complex dispersions and interactions (see `C82_bare_response_violated`), and the response at fixed
particle number. -/
theorem C83_response_partial {eig : Lindhard.Eig (Fin n)} (hs : Lindhard.EigSpec eig)
    (s : Solver n κ) (hk : ∀ k, (s.ekMF k).IsHermitian) (hreal : ∀ k a b, (s.ekMF k a b).im = 0)
    (hU : ∀ a b c d, s.U c d a b = s.U a b c d) (hU' : ∀ a b c d, s.U b a d c = s.U a b c d)
    (hdet : ∀ X0 : Operators.T4 n, (∀ a b c d, Tendsto (fun eps =>
        (hfrOf eig s.U (baseInit s eps)).chi0 a b c d) (𝓝[≠] 0) (𝓝 (X0 a b c d))) →
      IsUnit (1 - toMat X0 * toMat s.U).det)
    (e : κ → Matrix (Fin n) (Fin n) ℂ) (op1 op2 : Matrix (Fin n) (Fin n) ℂ)
    (ρ : ℝ → Matrix (Fin n) (Fin n) ℂ) (hmf : ∀ k, s.ekMF k = e k + HartreeFock.meanField s.U (ρ 0))
    (hd : ∀ a b, DifferentiableAt ℝ (fun t => ρ t a b) 0)
    (hsc : ∀ᶠ t : ℝ in 𝓝 0, SelfConsistent s.beta s.mu e s.U ((t : ℂ) • op1) (ρ t)) :
    ∃ L : ℂ, HasDerivAt (fun t : ℝ => Matrix.trace (ρ t * op2)) (-L) 0 ∧
      Tendsto (fun eps => response (hfrOf eig s.U (baseInit s eps)) op1 op2) (𝓝[≠] 0) (𝓝 L) := by
  have hk' := base_hermitian s hk
  have ht := base_symm s hk hreal
  have hu : IsUnit (1 - toMat (chi0Lim (baseInit s 0)) * toMat s.U).det :=
    hdet _ fun a b c d => chi0_tendsto hs (baseInit s 0) hk' ht a b c d
  refine ⟨∑ a, ∑ b, ∑ c, ∑ d,
    op1 a b * rpaMat (toMat (chi0Lim (baseInit s 0))) (toMat s.U) (a, b) (c, d) * op2 c d, ?_, ?_⟩
  swap
  · refine tendsto_finsetSum _ fun x _ => tendsto_finsetSum _ fun y _ => tendsto_finsetSum _ fun c _ =>
      tendsto_finsetSum _ fun d _ => ?_
    exact ((chi_tendsto hs s.U (baseInit s 0) hk' ht hu x y c d).const_mul _).mul_const _
  set X := toMat (chi0Lim (baseInit s 0)) with hX
  set V := toMat s.U with hV
  let ρ' : Matrix (Fin n) (Fin n) ℂ := fun a b => deriv (fun t => ρ t a b) 0
  have hρ' : ∀ a b, HasDerivAt (fun t => ρ t a b) (ρ' a b) 0 := fun a b => (hd a b).hasDerivAt
  have hlin := linearised s hk' e ρ op1 hmf ρ' hρ' hsc
  let r : Fin n × Fin n → ℂ := fun B => ρ' B.1 B.2
  let f : Fin n × Fin n → ℂ := fun A => op1 A.2 A.1
  have hr : r = -(Matrix.vecMul (f - V.mulVec r) X) := by
    funext B
    have h1 : r B = (Fintype.card κ : ℂ)⁻¹ * ∑ k, dFermi s.beta ((baseInit s 0).ek k)
        (HartreeFock.meanField s.U ρ' + op1) B.1 B.2 := by
      have := congrFun (congrFun hlin B.1) B.2
      simpa only [Matrix.smul_apply, Matrix.sum_apply, smul_eq_mul] using this
    rw [h1]
    simp only [Pi.neg_apply, Matrix.vecMul, dotProduct, Pi.sub_apply]
    have h2 : ∀ k, dFermi s.beta ((baseInit s 0).ek k) (HartreeFock.meanField s.U ρ' + op1) B.1 B.2
        = ∑ A : Fin n × Fin n, (f A - V.mulVec r A)
          * dFermi s.beta ((baseInit s 0).ek k) (unit A.2 A.1) B.1 B.2 := by
      intro k
      rw [dFermi_sum, Finset.sum_comm, Fintype.sum_prod_type]
      refine Finset.sum_congr rfl fun x _ => Finset.sum_congr rfl fun y _ => ?_
      rw [Matrix.add_apply, meanField_eq]
      ring
    simp only [h2]
    rw [Finset.sum_comm, Finset.mul_sum, ← Finset.sum_neg_distrib]
    refine Finset.sum_congr rfl fun A _ => ?_
    simp only [hX, toMat, chi0Lim, ← Finset.mul_sum, Finset.sum_neg_distrib]
    have : (baseInit s 0).beta = s.beta := rfl
    rw [this]
    ring
  have hsym : Vᵀ = V := by
    ext A B
    exact hU A.1 A.2 B.1 B.2
  have hsolve := linear_solve X V hu hsym r f hr
  have hXs : ∀ A B, X (Prod.swap A) (Prod.swap B) = X A B := by
    intro A B
    simp only [hX, toMat, chi0Lim, Prod.fst_swap, Prod.snd_swap]
    congr 1
    refine Finset.sum_congr rfl fun k _ => ?_
    rw [← unit_transpose, dFermi_transpose _ (hk' k) (ht k)]
    rfl
  have hVs : ∀ A B, V (Prod.swap A) (Prod.swap B) = V A B := fun A B => hU' A.1 A.2 B.1 B.2
  have htr : HasDerivAt (fun t : ℝ => Matrix.trace (ρ t * op2)) (∑ c, ∑ d, ρ' c d * op2 d c) 0 := by
    simp only [Matrix.trace, Matrix.diag_apply, Matrix.mul_apply]
    exact HasDerivAt.fun_sum fun c _ => HasDerivAt.fun_sum fun d _ => (hρ' c d).mul_const _
  refine htr.congr_deriv ?_
  rw [sum4_pair]
  calc ∑ c, ∑ d, ρ' c d * op2 d c = ∑ B : Fin n × Fin n, r B * op2 B.2 B.1 := by
        rw [Fintype.sum_prod_type]
    _ = ∑ B : Fin n × Fin n, -(∑ A : Fin n × Fin n, op1 A.2 A.1 * rpaMat X V A B * op2 B.2 B.1) := by
        refine Finset.sum_congr rfl fun B _ => ?_
        rw [hsolve]
        simp only [Pi.neg_apply, Matrix.vecMul, dotProduct, neg_mul, Finset.sum_mul, f]
    _ = -∑ A : Fin n × Fin n, ∑ B : Fin n × Fin n, op1 A.2 A.1 * rpaMat X V A B * op2 B.2 B.1 := by
        rw [Finset.sum_neg_distrib, Finset.sum_comm]
    _ = _ := by
        congr 1
        rw [← Equiv.sum_comp (Equiv.prodComm (Fin n) (Fin n))]
        refine Finset.sum_congr rfl fun A _ => ?_
        rw [← Equiv.sum_comp (Equiv.prodComm (Fin n) (Fin n))]
        refine Finset.sum_congr rfl fun B _ => ?_
        simp only [Equiv.prodComm_apply, Prod.fst_swap, Prod.snd_swap, rpaMat_swap X V hXs hVs]

end Verif.HfResponse
