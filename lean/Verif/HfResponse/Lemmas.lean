import Verif.HfResponse.Model
import Verif.Lindhard.Lemmas
import Mathlib.Analysis.Normed.Algebra.MatrixExponential
import Mathlib.Analysis.Calculus.FDeriv.Mul
import Mathlib.Analysis.Calculus.FDeriv.Analytic
import Mathlib.Analysis.Calculus.Deriv.Comp
import Mathlib.Analysis.Calculus.Deriv.Add

/-!
# The Fermi function of a matrix and its derivative
-/

noncomputable section

namespace Verif.HfResponse

open Matrix Filter Topology
open scoped Matrix.Norms.Operator

variable {n : ℕ} {κ : Type*}

set_option linter.unusedSectionVars false

/-- The Fermi function of a matrix, `1 / (exp(β h) + 1)`. -/
def fermiMatrix (beta : ℝ) (h : Matrix (Fin n) (Fin n) ℂ) : Matrix (Fin n) (Fin n) ℂ :=
  (NormedSpace.exp ((beta : ℂ) • h) + 1)⁻¹

theorem exp_of_diag (beta : ℝ) {h : Matrix (Fin n) (Fin n) ℂ}
    {p : (Fin n → ℝ) × Matrix (Fin n) (Fin n) ℂ} (hp : Lindhard.Diag h p) :
    NormedSpace.exp ((beta : ℂ) • h) = Lindhard.matFun p fun x => (Real.exp (beta * x) : ℂ) := by
  obtain ⟨p1, p2, p3⟩ := hp
  have hu : IsUnit p.2 := ⟨⟨p.2, p.2ᴴ, p2, p1⟩, rfl⟩
  have hinv : p.2⁻¹ = p.2ᴴ := Matrix.inv_eq_right_inv p2
  have : (beta : ℂ) • h = p.2 * diagonal (fun i => ((beta * p.1 i : ℝ) : ℂ)) * p.2⁻¹ := by
    rw [hinv]
    conv_lhs => rw [p3]
    rw [← smul_mul_assoc, ← mul_smul_comm]
    congr 2
    ext i j
    by_cases hij : i = j
    · subst hij; simp
    · simp [hij]
  rw [this, Matrix.exp_conj _ _ hu, Matrix.exp_diagonal, hinv]
  unfold Lindhard.matFun
  congr 3
  funext i
  rw [Pi.coe_exp]
  simp [Complex.exp_eq_exp_ℂ]


theorem matFun_mul (p : (Fin n → ℝ) × Matrix (Fin n) (Fin n) ℂ) (hp : p.2ᴴ * p.2 = 1) (f g : ℝ → ℂ) :
    Lindhard.matFun p f * Lindhard.matFun p g = Lindhard.matFun p fun x => f x * g x := by
  unfold Lindhard.matFun
  calc p.2 * diagonal (fun i => f (p.1 i)) * p.2ᴴ * (p.2 * diagonal (fun i => g (p.1 i)) * p.2ᴴ)
      = p.2 * diagonal (fun i => f (p.1 i)) * (p.2ᴴ * p.2) * diagonal (fun i => g (p.1 i)) * p.2ᴴ := by
        noncomm_ring
    _ = _ := by rw [hp, mul_one, mul_assoc p.2, diagonal_mul_diagonal]

theorem matFun_add (p : (Fin n → ℝ) × Matrix (Fin n) (Fin n) ℂ) (f g : ℝ → ℂ) :
    Lindhard.matFun p f + Lindhard.matFun p g = Lindhard.matFun p fun x => f x + g x := by
  unfold Lindhard.matFun
  rw [← add_mul, ← mul_add, diagonal_add]

theorem fermi_mul_exp (beta x : ℝ) :
    (Real.exp (beta * x) + 1) * HartreeFock.fermi beta x = 1 := by
  unfold HartreeFock.fermi
  have := Real.exp_pos (beta * x)
  field_simp

/-- the two factors are inverse to each other -/
theorem exp_add_one_mul (beta : ℝ) {h : Matrix (Fin n) (Fin n) ℂ}
    {p : (Fin n → ℝ) × Matrix (Fin n) (Fin n) ℂ} (hp : Lindhard.Diag h p) :
    (NormedSpace.exp ((beta : ℂ) • h) + 1)
      * Lindhard.matFun p (fun x => (HartreeFock.fermi beta x : ℂ)) = 1 := by
  rw [exp_of_diag beta hp, ← Lindhard.matFun_one hp, matFun_add, matFun_mul p hp.1]
  congr 1
  funext x
  have := fermi_mul_exp beta x
  exact_mod_cast this

theorem fermiMatrix_of_diag (beta : ℝ) {h : Matrix (Fin n) (Fin n) ℂ}
    {p : (Fin n → ℝ) × Matrix (Fin n) (Fin n) ℂ} (hp : Lindhard.Diag h p) :
    fermiMatrix beta h = Lindhard.matFun p (fun x => (HartreeFock.fermi beta x : ℂ)) :=
  Matrix.inv_eq_right_inv (exp_add_one_mul beta hp)

/-- The density matrix of the code is the Fermi function of the matrix. -/
theorem rhoOf_eq {eig : Lindhard.Eig (Fin n)} (hs : Lindhard.EigSpec eig) (beta : ℝ)
    {E : Matrix (Fin n) (Fin n) ℂ} (hE : E.IsHermitian) : rhoOf eig beta E = fermiMatrix beta E := by
  have hp : Lindhard.Diag E (eig E) := hs E hE
  rw [fermiMatrix_of_diag beta hp]
  ext a c
  rw [Lindhard.matFun_apply]
  rfl

theorem isUnit_exp_add_one (beta : ℝ) {h : Matrix (Fin n) (Fin n) ℂ} (hh : h.IsHermitian) :
    IsUnit (NormedSpace.exp ((beta : ℂ) • h) + 1) := by
  obtain ⟨eig, he⟩ := Lindhard.exists_eigSpec (o := Fin n)
  have hp : Lindhard.Diag h (eig h) := he h hh
  exact IsUnit.of_mul_eq_one _ (exp_add_one_mul beta hp)

/-- The Fermi function of a matrix is complex differentiable at hermitian matrices. -/
theorem fermiMatrix_differentiable (beta : ℝ) {h : Matrix (Fin n) (Fin n) ℂ} (hh : h.IsHermitian) :
    DifferentiableAt ℂ (fermiMatrix (n := n) beta) h := by
  have h1 : DifferentiableAt ℂ (fun x : Matrix (Fin n) (Fin n) ℂ => NormedSpace.exp ((beta : ℂ) • x) + 1) h := by
    refine DifferentiableAt.add_const 1 ?_
    have h2 : DifferentiableAt ℂ (NormedSpace.exp : Matrix (Fin n) (Fin n) ℂ → Matrix (Fin n) (Fin n) ℂ)
        ((beta : ℂ) • h) := (NormedSpace.exp_analytic (𝕂 := ℂ) _).differentiableAt
    exact h2.comp h (differentiableAt_id.const_smul (beta : ℂ))
  have h3 := (differentiableAt_inverse (𝕜 := ℂ) (isUnit_exp_add_one beta hh)).comp h h1
  refine h3.congr_of_eventuallyEq (Eventually.of_forall fun x => ?_)
  simp only [fermiMatrix, Function.comp, Matrix.nonsing_inv_eq_ringInverse]

/-- The derivative of the Fermi function of a matrix. -/
def dFermi (beta : ℝ) (h : Matrix (Fin n) (Fin n) ℂ) :
    Matrix (Fin n) (Fin n) ℂ →L[ℂ] Matrix (Fin n) (Fin n) ℂ := fderiv ℂ (fermiMatrix beta) h

theorem hasFDerivAt_fermi (beta : ℝ) {h : Matrix (Fin n) (Fin n) ℂ} (hh : h.IsHermitian) :
    HasFDerivAt (fermiMatrix (n := n) beta) (dFermi beta h) h :=
  (fermiMatrix_differentiable beta hh).hasFDerivAt

/-- derivative along a real line -/
theorem hasDerivAt_line (beta : ℝ) {h : Matrix (Fin n) (Fin n) ℂ} (hh : h.IsHermitian)
    (F : Matrix (Fin n) (Fin n) ℂ) :
    HasDerivAt (fun t : ℝ => fermiMatrix beta (h + (t : ℂ) • F)) (dFermi beta h F) 0 := by
  have hl : HasDerivAt (fun t : ℝ => h + (t : ℂ) • F) F 0 := by
    have h1 : HasDerivAt (fun t : ℝ => (t : ℂ)) 1 0 := Complex.ofRealCLM.hasDerivAt
    exact ((h1.smul_const F).const_add h).congr_deriv (by simp)
  have h2 : HasFDerivAt (fermiMatrix (n := n) beta) ((dFermi beta h).restrictScalars ℝ)
      (h + ((0 : ℝ) : ℂ) • F) := by
    rw [Complex.ofReal_zero, zero_smul, add_zero]
    exact (hasFDerivAt_fermi beta hh).restrictScalars ℝ
  exact h2.comp_hasDerivAt (0 : ℝ) hl

/-- the central difference tends to the derivative -/
theorem central_tendsto (beta : ℝ) {h : Matrix (Fin n) (Fin n) ℂ} (hh : h.IsHermitian)
    (F : Matrix (Fin n) (Fin n) ℂ) :
    Tendsto (fun eps : ℝ => (2 * (eps : ℂ))⁻¹ • (fermiMatrix beta (h + (eps : ℂ) • F)
      - fermiMatrix beta (h - (eps : ℂ) • F))) (𝓝[≠] 0) (𝓝 (dFermi beta h F)) := by
  have hd := hasDerivAt_line beta hh F
  have h1 := hd.tendsto_slope_zero
  have hd' := hasDerivAt_line beta hh (-F)
  have h2 := hd'.tendsto_slope_zero
  have h3 := (h1.sub h2).const_smul (2⁻¹ : ℂ)
  have e : (2⁻¹ : ℂ) • (dFermi beta h F - dFermi beta h (-F)) = dFermi beta h F := by
    rw [map_neg, sub_neg_eq_add, ← two_smul ℂ, smul_smul]
    norm_num
  rw [e] at h3
  refine h3.congr fun eps => ?_
  simp only [zero_add, Complex.ofReal_zero, zero_smul, smul_neg, add_zero, neg_zero]
  rw [← smul_sub, sub_sub_sub_cancel_right, ← sub_eq_add_neg, mul_inv, mul_smul]
  congr 1
  rw [← Complex.ofReal_inv]
  rfl

theorem fermiMatrix_transpose (beta : ℝ) (h : Matrix (Fin n) (Fin n) ℂ) :
    fermiMatrix beta hᵀ = (fermiMatrix beta h)ᵀ := by
  unfold fermiMatrix
  rw [Matrix.transpose_nonsing_inv, Matrix.transpose_add, Matrix.transpose_one, ← Matrix.exp_transpose,
    Matrix.transpose_smul]

theorem fermiMatrix_conjTranspose (beta : ℝ) (h : Matrix (Fin n) (Fin n) ℂ) :
    fermiMatrix beta hᴴ = (fermiMatrix beta h)ᴴ := by
  unfold fermiMatrix
  rw [Matrix.conjTranspose_nonsing_inv, Matrix.conjTranspose_add, Matrix.conjTranspose_one,
    ← Matrix.exp_conjTranspose, Matrix.conjTranspose_smul]
  simp

/-- the derivative at a symmetric hermitian matrix commutes with transposition -/
theorem dFermi_transpose (beta : ℝ) {h : Matrix (Fin n) (Fin n) ℂ} (hh : h.IsHermitian) (ht : hᵀ = h)
    (F : Matrix (Fin n) (Fin n) ℂ) : dFermi beta h Fᵀ = (dFermi beta h F)ᵀ := by
  have h1 := central_tendsto beta hh F
  have h2 := central_tendsto beta hh Fᵀ
  have h3 := (Continuous.matrix_transpose continuous_id).continuousAt.tendsto.comp h1
  refine tendsto_nhds_unique h2 (h3.congr fun eps => ?_)
  simp only [Function.comp, id, Matrix.transpose_smul, Matrix.transpose_sub, ← fermiMatrix_transpose,
    Matrix.transpose_add, ht]

theorem dFermi_conjTranspose (beta : ℝ) {h : Matrix (Fin n) (Fin n) ℂ} (hh : h.IsHermitian)
    (F : Matrix (Fin n) (Fin n) ℂ) : dFermi beta h Fᴴ = (dFermi beta h F)ᴴ := by
  have h1 := central_tendsto beta hh F
  have h2 := central_tendsto beta hh Fᴴ
  have h3 := (Continuous.matrix_conjTranspose continuous_id).continuousAt.tendsto.comp h1
  refine tendsto_nhds_unique h2 (h3.congr fun eps => ?_)
  simp only [Function.comp, id, Matrix.conjTranspose_smul, Matrix.conjTranspose_sub,
    ← fermiMatrix_conjTranspose, Matrix.conjTranspose_add, hh.eq]
  simp

/-- unit matrix with a single entry -/
def unit (a b : Fin n) : Matrix (Fin n) (Fin n) ℂ := fun i j => if i = a ∧ j = b then 1 else 0

theorem field_eq (p : ℂ) (a b : Fin n) :
    field p a b = p • unit a b + (starRingEnd ℂ) p • unit b a := by
  ext i j
  simp only [field, unit, Matrix.add_apply, Matrix.smul_apply, smul_eq_mul]
  split_ifs <;> simp

theorem unit_transpose (a b : Fin n) : (unit a b)ᵀ = unit b a := by
  ext i j
  simp [unit, Matrix.transpose_apply, and_comm]

theorem unit_conjTranspose (a b : Fin n) : (unit a b)ᴴ = unit b a := by
  ext i j
  simp only [unit, Matrix.conjTranspose_apply, and_comm]
  split_ifs <;> simp

theorem field_isHermitian (p : ℂ) (a b : Fin n) : (field p a b).IsHermitian := by
  rw [field_eq]
  unfold Matrix.IsHermitian
  rw [Matrix.conjTranspose_add, Matrix.conjTranspose_smul, Matrix.conjTranspose_smul,
    unit_conjTranspose, unit_conjTranspose, add_comm]
  simp

theorem add_smul_isHermitian {E F : Matrix (Fin n) (Fin n) ℂ} (hE : E.IsHermitian) (hF : F.IsHermitian)
    (t : ℝ) : (E + (t : ℂ) • F).IsHermitian := by
  unfold Matrix.IsHermitian
  rw [Matrix.conjTranspose_add, Matrix.conjTranspose_smul, hE.eq, hF.eq]
  simp

theorem sub_smul_isHermitian {E F : Matrix (Fin n) (Fin n) ℂ} (hE : E.IsHermitian) (hF : F.IsHermitian)
    (t : ℝ) : (E - (t : ℂ) • F).IsHermitian := by
  unfold Matrix.IsHermitian
  rw [Matrix.conjTranspose_sub, Matrix.conjTranspose_smul, hE.eq, hF.eq]
  simp

/-- the finite difference of the code is the central difference -/
theorem drhoK_eq {eig : Lindhard.Eig (Fin n)} (hs : Lindhard.EigSpec eig) (b : Base n κ) (k : κ)
    (hk : (b.ek k).IsHermitian) {F : Matrix (Fin n) (Fin n) ℂ} (hF : F.IsHermitian) :
    drhoK eig b F k = (2 * (b.eps : ℂ))⁻¹ • (fermiMatrix b.beta (b.ek k + (b.eps : ℂ) • F)
      - fermiMatrix b.beta (b.ek k - (b.eps : ℂ) • F)) := by
  ext a c
  simp only [drhoK]
  rw [rhoOf_eq hs _ (add_smul_isHermitian hk hF _), rhoOf_eq hs _ (sub_smul_isHermitian hk hF _)]
  simp only [Matrix.smul_apply, Matrix.sub_apply, smul_eq_mul]
  rw [div_eq_inv_mul]

/-- The family of base objects that differ in the step. -/
def Base.withEps (b : Base n κ) (eps : ℝ) : Base n κ := { b with eps := eps }

theorem drhoK_tendsto {eig : Lindhard.Eig (Fin n)} (hs : Lindhard.EigSpec eig) (b : Base n κ) (k : κ)
    (hk : (b.ek k).IsHermitian) {F : Matrix (Fin n) (Fin n) ℂ} (hF : F.IsHermitian) :
    Tendsto (fun eps => drhoK eig (b.withEps eps) F k) (𝓝[≠] 0) (𝓝 (dFermi b.beta (b.ek k) F)) := by
  refine (central_tendsto b.beta hk F).congr fun eps => ?_
  rw [drhoK_eq hs (b.withEps eps) k hk hF]
  rfl

theorem chi0K_tendsto {eig : Lindhard.Eig (Fin n)} (hs : Lindhard.EigSpec eig) (b : Base n κ) (k : κ)
    (hk : (b.ek k).IsHermitian) (ht : (b.ek k)ᵀ = b.ek k) (x y c d : Fin n) :
    Tendsto (fun eps => chi0Kabcd eig (b.withEps eps) k x y c d) (𝓝[≠] 0)
      (𝓝 (-(dFermi b.beta (b.ek k) (unit y x) c d))) := by
  have hr := drhoK_tendsto hs b k hk (field_isHermitian 1 y x)
  have hi := drhoK_tendsto hs b k hk (field_isHermitian Complex.I y x)
  have hr' : Tendsto (fun eps => rKabcd eig (b.withEps eps) 1 k x y c d) (𝓝[≠] 0)
      (𝓝 (-(dFermi b.beta (b.ek k) (field 1 y x) c d))) :=
    (((continuous_id.matrix_elem c d).tendsto _).comp hr).neg
  have hi' : Tendsto (fun eps => rKabcd eig (b.withEps eps) Complex.I k x y c d) (𝓝[≠] 0)
      (𝓝 (-(dFermi b.beta (b.ek k) (field Complex.I y x) c d))) :=
    (((continuous_id.matrix_elem c d).tendsto _).comp hi).neg
  have him := (Complex.continuous_ofReal.tendsto _).comp ((Complex.continuous_im.tendsto _).comp hi')
  have hs' := (hr'.add him).const_mul (0.5 : ℂ)
  refine (hs'.congr fun eps => rfl).trans (le_of_eq ?_)
  congr 1
  -- the response to the antisymmetric field is purely imaginary
  have hT : (dFermi b.beta (b.ek k) (field Complex.I y x))ᵀ
      = -(dFermi b.beta (b.ek k) (field Complex.I y x)) := by
    rw [← dFermi_transpose _ hk ht, ← map_neg]
    congr 1
    rw [field_eq, Matrix.transpose_add, Matrix.transpose_smul, Matrix.transpose_smul, unit_transpose,
      unit_transpose, Complex.conj_I]
    simp [add_comm]
  have hH : (dFermi b.beta (b.ek k) (field Complex.I y x))ᴴ
      = dFermi b.beta (b.ek k) (field Complex.I y x) := by
    rw [← dFermi_conjTranspose _ hk, (field_isHermitian Complex.I y x).eq]
  set X := dFermi b.beta (b.ek k) (field Complex.I y x) with hX
  have h1 : X d c = -X c d := congrFun (congrFun hT c) d
  have h2 : (starRingEnd ℂ) (X d c) = X c d := congrFun (congrFun hH c) d
  have hre : (X c d).re = 0 := by
    have := congrArg Complex.re h2
    rw [h1] at this
    simp at this
    linarith
  have hXi : (((-X c d).im : ℝ) : ℂ) = Complex.I * X c d := by
    apply Complex.ext
    · simp
    · simp [hre]
  rw [hXi, hX, field_eq, field_eq]
  simp only [map_add, map_smul, Matrix.add_apply, Matrix.smul_apply, smul_eq_mul, Complex.conj_I, map_one,
    one_mul]
  have hI := Complex.I_mul_I
  linear_combination (0.5 * (dFermi b.beta (b.ek k) (unit y x) c d)
    - 0.5 * (dFermi b.beta (b.ek k) (unit x y) c d)) * hI

end Verif.HfResponse
