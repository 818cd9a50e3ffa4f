import Verif.Lindhard.Props
import Verif.Rpa.Props
import Verif.HartreeFock.SolverProps
import Mathlib.LinearAlgebra.Matrix.SchurComplement

/-!
# C116: conserved charges

At zero momentum transfer a conserved one-body operator has no response at a nonzero frequency; the static response of the
density is the derivative of the density with respect to the chemical potential. Both survive the RPA resummation and fix the
screened interaction.
-/

noncomputable section

namespace Verif.Lindhard

open Complex Verif.Parallel Verif.Fourier Verif.Bubble Matrix

set_option linter.unusedSectionVars false

variable {d : ℕ} {n : Fin d → ℕ} [∀ i, NeZero (n i)] {o : Type*} [Fintype o] [DecidableEq o]

/-- a one-body operator `Σ X_ab c†_a c_b` that commutes with the Hamiltonian `Σ e_ab(k) c†_ka c_kb` -/
def Conserved (e : Lat n → Matrix o o ℂ) (X : Matrix o o ℂ) : Prop := ∀ k, X * e k = e k * X

/-- the response of the operator `Σ X_ab c†_a c_b` to the pair `c, d` -/
def leftCharge (X : Matrix o o ℂ) (chi : T4 o) (c f : o) : ℂ := ∑ a, ∑ b, X a b * chi a b c f

/-- the response of the pair `a, b` to the operator `Σ X_cd c†_c c_d` -/
def rightCharge (X : Matrix o o ℂ) (chi : T4 o) (a b : o) : ℂ := ∑ c, ∑ f, X c f * chi a b c f

theorem commute_shift {m Y : Matrix o o ℂ} (mu : ℂ) (h : Y * m = m * Y) : Y * (m - mu • 1) = (m - mu • 1) * Y := by
  rw [mul_sub, sub_mul, h, Matrix.mul_smul, Matrix.smul_mul, mul_one, one_mul]

/-- in an eigenbasis an operator commuting with the matrix is block diagonal -/
theorem block {m Y : Matrix o o ℂ} {p : (o → ℝ) × Matrix o o ℂ} (hp : Diag m p) (h : Y * m = m * Y) (j i : o) :
    (p.2ᴴ * Y * p.2) j i = 0 ∨ p.1 j = p.1 i := by
  have key : p.2ᴴ * Y * p.2 * diagonal (fun i => (p.1 i : ℂ)) = diagonal (fun i => (p.1 i : ℂ)) * (p.2ᴴ * Y * p.2) := by
    calc p.2ᴴ * Y * p.2 * diagonal (fun i => (p.1 i : ℂ))
        = p.2ᴴ * (Y * (p.2 * diagonal (fun i => (p.1 i : ℂ)) * p.2ᴴ)) * p.2 := by
          rw [show p.2ᴴ * (Y * (p.2 * diagonal (fun i => (p.1 i : ℂ)) * p.2ᴴ)) * p.2
            = p.2ᴴ * Y * p.2 * diagonal (fun i => (p.1 i : ℂ)) * (p.2ᴴ * p.2) by noncomm_ring, hp.1, mul_one]
      _ = p.2ᴴ * (p.2 * diagonal (fun i => (p.1 i : ℂ)) * p.2ᴴ * Y) * p.2 := by rw [← hp.2.2, h]
      _ = _ := by
          rw [show p.2ᴴ * (p.2 * diagonal (fun i => (p.1 i : ℂ)) * p.2ᴴ * Y) * p.2
            = (p.2ᴴ * p.2) * diagonal (fun i => (p.1 i : ℂ)) * (p.2ᴴ * Y * p.2) by noncomm_ring, hp.1, one_mul]
  have h1 := congrFun (congrFun key j) i
  simp only [Matrix.mul_diagonal, Matrix.diagonal_mul] at h1
  by_cases hz : (p.2ᴴ * Y * p.2) j i = 0
  · exact Or.inl hz
  · right
    rw [mul_comm] at h1
    have := mul_right_cancel₀ hz h1
    exact_mod_cast this.symm

/-- contraction of a double function at equal arguments with a commuting operator -/
theorem leftCharge_dbl {m X : Matrix o o ℂ} {p : (o → ℝ) × Matrix o o ℂ} (hp : Diag m p) (h : Xᵀ * m = m * Xᵀ)
    (g : ℝ → ℝ → ℂ) (c f : o) : leftCharge X (dbl p p g) c f = (Xᵀ * matFun p fun x => g x x) c f := by
  have e1 : leftCharge X (dbl p p g) c f
      = ∑ i, ∑ j, (p.2 c j * (p.2ᴴ * Xᵀ * p.2) j i) * (g (p.1 i) (p.1 j) * p.2ᴴ i f) := by
    have e2 : ∀ i j, (p.2ᴴ * Xᵀ * p.2) j i = ∑ a, ∑ b, X a b * p.2 a i * p.2ᴴ j b := by
      intro i j
      rw [Matrix.mul_apply]
      refine Finset.sum_congr rfl fun a _ => ?_
      rw [Matrix.mul_apply, Finset.sum_mul]
      refine Finset.sum_congr rfl fun b _ => ?_
      rw [Matrix.transpose_apply]
      ring
    simp only [e2, leftCharge, dbl, Finset.mul_sum, Finset.sum_mul]
    have sw : ∀ F : o → o → o → o → ℂ, ∑ a, ∑ b, ∑ i, ∑ j, F a b i j = ∑ i, ∑ j, ∑ a, ∑ b, F a b i j := by
      intro F
      calc ∑ a, ∑ b, ∑ i, ∑ j, F a b i j = ∑ a, ∑ i, ∑ b, ∑ j, F a b i j :=
            Finset.sum_congr rfl fun a _ => Finset.sum_comm
        _ = ∑ i, ∑ a, ∑ b, ∑ j, F a b i j := Finset.sum_comm
        _ = ∑ i, ∑ a, ∑ j, ∑ b, F a b i j :=
            Finset.sum_congr rfl fun i _ => Finset.sum_congr rfl fun a _ => Finset.sum_comm
        _ = _ := Finset.sum_congr rfl fun i _ => Finset.sum_comm
    rw [sw]
    refine Finset.sum_congr rfl fun i _ => Finset.sum_congr rfl fun j _ => Finset.sum_congr rfl fun a _ =>
      Finset.sum_congr rfl fun b _ => ?_
    ring
  have e3 : Xᵀ * matFun p (fun x => g x x) = p.2 * (p.2ᴴ * Xᵀ * p.2) * diagonal (fun i => g (p.1 i) (p.1 i)) * p.2ᴴ := by
    rw [matFun, show p.2 * (p.2ᴴ * Xᵀ * p.2) * diagonal (fun i => g (p.1 i) (p.1 i)) * p.2ᴴ
      = (p.2 * p.2ᴴ) * Xᵀ * p.2 * diagonal (fun i => g (p.1 i) (p.1 i)) * p.2ᴴ by noncomm_ring, hp.2.1, one_mul]
    noncomm_ring
  rw [e1, e3, Matrix.mul_apply]
  refine Finset.sum_congr rfl fun i _ => ?_
  rw [Matrix.mul_diagonal, Matrix.mul_apply, Finset.sum_mul, Finset.sum_mul]
  refine Finset.sum_congr rfl fun j _ => ?_
  rcases block hp h j i with h0 | h0
  · rw [h0]; ring
  · rw [h0]; ring

theorem rightCharge_dbl {m X : Matrix o o ℂ} {p : (o → ℝ) × Matrix o o ℂ} (hp : Diag m p) (h : Xᵀ * m = m * Xᵀ)
    (g : ℝ → ℝ → ℂ) (a b : o) : rightCharge X (dbl p p g) a b = (Xᵀ * matFun p fun x => g x x) a b := by
  rw [← leftCharge_dbl hp h (fun x y => g y x)]
  unfold rightCharge leftCharge
  refine Finset.sum_congr rfl fun c _ => Finset.sum_congr rfl fun f _ => ?_
  rw [dbl_swap]

/-- the factor of the bubble for equal energies -/
theorem totalFactor_self (tol beta : ℝ) (ht : 0 < tol) (z : ℂ) (x : ℝ) :
    totalFactor tol beta z x x = if ‖z‖ < tol then ((beta / (4 * Real.cosh (x * beta / 2) ^ 2) : ℝ) : ℂ) else 0 := by
  unfold totalFactor
  by_cases h : ‖z‖ < tol
  · rw [if_pos ⟨h, by simpa using ht⟩, if_pos h]
    dsimp only
    congr 2
    rw [show (0.5 : ℝ) * beta * x = x * beta / 2 by norm_num; ring]
    ring
  · rw [if_neg (fun hh => h hh.1), if_neg h]
    simp

/-- with time reversal symmetry the transpose of a conserved operator is conserved -/
theorem conserved_transpose {e : Lat n → Matrix o o ℂ} (htr : TimeReversal e) {X : Matrix o o ℂ} (hX : Conserved e X) :
    Conserved e Xᵀ := by
  intro k
  have h := hX (-k)
  rw [htr k] at h
  have h2 := congrArg Matrix.transpose h
  rw [Matrix.transpose_mul, Matrix.transpose_mul, Matrix.transpose_transpose] at h2
  exact h2.symm

theorem leftCharge_smul (X : Matrix o o ℂ) (w : ℂ) (g : T4 o) (c f : o) : leftCharge X (w • g) c f = w * leftCharge X g c f := by
  simp only [leftCharge, Pi.smul_apply, smul_eq_mul, Finset.mul_sum]
  exact Finset.sum_congr rfl fun a _ => Finset.sum_congr rfl fun b _ => by ring

theorem leftCharge_sum (X : Matrix o o ℂ) {ι : Type*} (s : Finset ι) (g : ι → T4 o) (c f : o) :
    leftCharge X (∑ k ∈ s, g k) c f = ∑ k ∈ s, leftCharge X (g k) c f := by
  classical
  induction s using Finset.induction_on with
  | empty => simp [leftCharge]
  | insert k s hk ih =>
    rw [Finset.sum_insert hk, Finset.sum_insert hk, ← ih]
    simp only [leftCharge, Pi.add_apply, mul_add, Finset.sum_add_distrib]

theorem rightCharge_smul (X : Matrix o o ℂ) (w : ℂ) (g : T4 o) (a b : o) :
    rightCharge X (w • g) a b = w * rightCharge X g a b := by
  simp only [rightCharge, Pi.smul_apply, smul_eq_mul, Finset.mul_sum]
  exact Finset.sum_congr rfl fun a _ => Finset.sum_congr rfl fun b _ => by ring

theorem rightCharge_sum (X : Matrix o o ℂ) {ι : Type*} (s : Finset ι) (g : ι → T4 o) (a b : o) :
    rightCharge X (∑ k ∈ s, g k) a b = ∑ k ∈ s, rightCharge X (g k) a b := by
  classical
  induction s using Finset.induction_on with
  | empty => simp [rightCharge]
  | insert k s hk ih =>
    rw [Finset.sum_insert hk, Finset.sum_insert hk, ← ih]
    simp only [rightCharge, Pi.add_apply, mul_add, Finset.sum_add_distrib]

/-- minus the derivative of the Fermi function, averaged over the momenta -/
def thermalWeight (eig : Eig o) (beta mu : ℝ) (e : Lat n → Matrix o o ℂ) : Matrix o o ℂ :=
  (Fintype.card (Lat n) : ℂ)⁻¹ • ∑ k, matFun (sys eig mu e k) fun x => ((beta / (4 * Real.cosh (x * beta / 2) ^ 2) : ℝ) : ℂ)

/-- both contractions of the bubble at zero momentum, for an operator whose transpose commutes with the dispersion -/
theorem charges (ranks : ℕ) (hr : 0 < ranks) {eig : Eig o} (hs : EigSpec eig) (tol beta mu : ℝ) (ht : 0 < tol)
    {kmesh : List (Lat n)} (hnd : kmesh.Nodup) (hall : ∀ k, k ∈ kmesh) {e : Lat n → Matrix o o ℂ}
    (he : ∀ k, (e k).IsHermitian) {X : Matrix o o ℂ} (hX : Conserved e Xᵀ) (z : ℂ) (c f : o) :
    leftCharge X (lindhard ranks eig tol beta mu kmesh e z 0) c f
        = (if ‖z‖ < tol then (Xᵀ * thermalWeight eig beta mu e) c f else 0) ∧
      rightCharge X (lindhard ranks eig tol beta mu kmesh e z 0) c f
        = (if ‖z‖ < tol then (Xᵀ * thermalWeight eig beta mu e) c f else 0) := by
  have key : (Fintype.card (Lat n) : ℂ)⁻¹ * ∑ k, (Xᵀ * matFun (sys eig mu e k) fun x => totalFactor tol beta z x x) c f
      = if ‖z‖ < tol then (Xᵀ * thermalWeight eig beta mu e) c f else 0 := by
    by_cases h : ‖z‖ < tol
    · rw [if_pos h, thermalWeight, Matrix.mul_smul, Matrix.smul_apply, smul_eq_mul, Matrix.mul_sum, Matrix.sum_apply]
      simp only [totalFactor_self tol beta ht, if_pos h]
    · rw [if_neg h]
      have h0 : ∀ k, (matFun (sys eig mu e k) fun x => totalFactor tol beta z x x) = 0 := by
        intro k
        ext a b
        rw [matFun_apply]
        simp [totalFactor_self tol beta ht, h]
      simp [h0]
  have hc : ∀ k, Xᵀ * (e k - (mu : ℂ) • 1) = (e k - (mu : ℂ) • 1) * Xᵀ := fun k => commute_shift _ (hX k)
  rw [← key, lindhard_eq ranks hr eig tol beta mu kmesh hnd hall]
  constructor
  · rw [leftCharge_smul, leftCharge_sum]
    congr 1
    refine Finset.sum_congr rfl fun k _ => ?_
    rw [add_zero]
    exact leftCharge_dbl (sys_diag hs mu he k) (hc k) _ c f
  · rw [rightCharge_smul, rightCharge_sum]
    congr 1
    refine Finset.sum_congr rfl fun k _ => ?_
    rw [add_zero]
    exact rightCharge_dbl (sys_diag hs mu he k) (hc k) _ c f

/-- C116: a conserved one-body operator has no response at zero momentum and nonzero frequency, in a system with time
reversal symmetry. -/
theorem C116_no_response (ranks : ℕ) (hr : 0 < ranks) {eig : Eig o} (hs : EigSpec eig) (tol beta mu : ℝ) (ht : 0 < tol)
    {kmesh : List (Lat n)} (hnd : kmesh.Nodup) (hall : ∀ k, k ∈ kmesh) {e : Lat n → Matrix o o ℂ}
    (he : ∀ k, (e k).IsHermitian) (htr : TimeReversal e) {X : Matrix o o ℂ} (hX : Conserved e X) (z : ℂ) (hz : tol ≤ ‖z‖)
    (c f : o) :
    leftCharge X (lindhard ranks eig tol beta mu kmesh e z 0) c f = 0 ∧
      rightCharge X (lindhard ranks eig tol beta mu kmesh e z 0) c f = 0 := by
  have h := charges ranks hr hs tol beta mu ht hnd hall he (conserved_transpose htr hX) z c f
  rwa [if_neg (not_lt.2 hz)] at h

/-- C116: the number of particles does not respond at zero momentum and nonzero frequency, with or without time reversal
symmetry. -/
theorem C116_particle_number (ranks : ℕ) (hr : 0 < ranks) {eig : Eig o} (hs : EigSpec eig) (tol beta mu : ℝ) (ht : 0 < tol)
    {kmesh : List (Lat n)} (hnd : kmesh.Nodup) (hall : ∀ k, k ∈ kmesh) {e : Lat n → Matrix o o ℂ}
    (he : ∀ k, (e k).IsHermitian) (z : ℂ) (hz : tol ≤ ‖z‖) (c f : o) :
    ∑ a, lindhard ranks eig tol beta mu kmesh e z 0 a a c f = 0 ∧
      ∑ a, lindhard ranks eig tol beta mu kmesh e z 0 c f a a = 0 := by
  have h := charges ranks hr hs tol beta mu ht hnd hall he (X := 1) (fun k => by simp) z c f
  rw [if_neg (not_lt.2 hz)] at h
  simpa [leftCharge, rightCharge, Matrix.one_apply] using h

/-! ## Static response -/

section Static

variable {N : ℕ}

theorem fermi_deriv (beta mu x : ℝ) : HasDerivAt (fun mu' : ℝ => HartreeFock.fermi beta (x - mu'))
    (beta / (4 * Real.cosh ((x - mu) * beta / 2) ^ 2)) mu := by
  have e : (fun mu' : ℝ => HartreeFock.fermi beta (x - mu')) = fun mu' => fermi (beta * (x - mu')) := by
    funext m
    rw [C20_fermi]
    rfl
  rw [e]
  have h0 : HasDerivAt (fun mu' : ℝ => beta * (x - mu')) (beta * (0 - 1)) mu :=
    ((hasDerivAt_const mu x).sub (hasDerivAt_id mu)).const_mul beta
  have h1 := HasDerivAt.comp mu (h₂ := fermi) (h := fun mu' : ℝ => beta * (x - mu')) (fermi_hasDerivAt (beta * (x - mu))) h0
  refine HasDerivAt.congr_deriv h1 ?_
  rw [show beta * (x - mu) / 2 = (x - mu) * beta / 2 by ring]
  ring

/-- the density matrix of `update_density_matrix` for the dispersion at a chemical potential -/
def densityAt (eig : Eig (Fin N)) (beta : ℝ) (e : Lat n → Matrix (Fin N) (Fin N) ℂ) (mu : ℝ) : Matrix (Fin N) (Fin N) ℂ :=
  HartreeFock.density (HartreeFock.momentumDensity beta mu (fun k => (eig (e k)).1) fun k => (eig (e k)).2)

theorem densityAt_deriv {eig : Eig (Fin N)} (hs : EigSpec eig) (beta mu : ℝ) {e : Lat n → Matrix (Fin N) (Fin N) ℂ}
    (he : ∀ k, (e k).IsHermitian) (a b : Fin N) :
    HasDerivAt (fun mu' : ℝ => densityAt eig beta e mu' a b) (thermalWeight eig beta mu e a b) mu := by
  have h1 : ∀ k, (matFun (sys eig mu e k) fun x => ((beta / (4 * Real.cosh (x * beta / 2) ^ 2) : ℝ) : ℂ))
      = matFun (eig (e k)) fun x => ((beta / (4 * Real.cosh ((x - mu) * beta / 2) ^ 2) : ℝ) : ℂ) := by
    intro k
    have hp := hs (e k) (he k)
    have hq : Diag (e k - (mu : ℂ) • 1) (fun i => (eig (e k)).1 i - mu, (eig (e k)).2) := by
      refine ⟨hp.1, hp.2.1, ?_⟩
      have h1 : diagonal (fun i => (((eig (e k)).1 i - mu : ℝ) : ℂ))
          = diagonal (fun i => ((eig (e k)).1 i : ℂ)) - (mu : ℂ) • (1 : Matrix (Fin N) (Fin N) ℂ) := by
        rw [Matrix.smul_one_eq_diagonal, Matrix.diagonal_sub]
        congr 1
        funext i
        push_cast
        rfl
      show e k - (mu : ℂ) • 1 = (eig (e k)).2 * diagonal (fun i => (((eig (e k)).1 i - mu : ℝ) : ℂ)) * (eig (e k)).2ᴴ
      rw [h1, mul_sub, sub_mul, ← hp.2.2, Matrix.mul_smul, mul_one, Matrix.smul_mul, hp.2.1]
    rw [matFun_unique (sys_diag hs mu he k) hq]
    rfl
  have h2 : thermalWeight eig beta mu e a b = (∑ k, ∑ i, (eig (e k)).2 a i
      * ((beta / (4 * Real.cosh (((eig (e k)).1 i - mu) * beta / 2) ^ 2) : ℝ) : ℂ) * (eig (e k)).2ᴴ i b)
      / (Fintype.card (Lat n) : ℂ) := by
    rw [thermalWeight, Matrix.smul_apply, smul_eq_mul, Matrix.sum_apply, div_eq_inv_mul]
    congr 1
    refine Finset.sum_congr rfl fun k _ => ?_
    rw [h1, matFun_apply]
  rw [h2]
  unfold densityAt HartreeFock.density HartreeFock.momentumDensity
  refine HasDerivAt.div_const (HasDerivAt.fun_sum fun k _ => HasDerivAt.fun_sum fun i _ => ?_) _
  exact ((fermi_deriv beta mu _).ofReal_comp.const_mul _).mul_const _

/-- C116: the static response at zero momentum of the density to a conserved operator is the derivative of the density with
respect to the chemical potential, times the operator. -/
theorem C116_static (ranks : ℕ) (hr : 0 < ranks) {eig : Eig (Fin N)} (hs : EigSpec eig) (tol beta mu : ℝ) (ht : 0 < tol)
    {kmesh : List (Lat n)} (hnd : kmesh.Nodup) (hall : ∀ k, k ∈ kmesh) {e : Lat n → Matrix (Fin N) (Fin N) ℂ}
    (he : ∀ k, (e k).IsHermitian) (htr : TimeReversal e) {X : Matrix (Fin N) (Fin N) ℂ} (hX : Conserved e X) (c f : Fin N) :
    HasDerivAt (fun mu' : ℝ => (Xᵀ * densityAt eig beta e mu') c f)
      (leftCharge X (lindhard ranks eig tol beta mu kmesh e 0 0) c f) mu ∧
    rightCharge X (lindhard ranks eig tol beta mu kmesh e 0 0) c f
      = leftCharge X (lindhard ranks eig tol beta mu kmesh e 0 0) c f := by
  have h := charges ranks hr hs tol beta mu ht hnd hall he (conserved_transpose htr hX) 0 c f
  rw [norm_zero, if_pos ht] at h
  rw [h.1, h.2]
  refine ⟨?_, rfl⟩
  simp only [Matrix.mul_apply]
  exact HasDerivAt.fun_sum fun i _ => (densityAt_deriv hs beta mu he i f).const_mul _

/-- C116: compressibility. The static response at zero momentum of every element of the density matrix to the particle number
is its derivative with respect to the chemical potential. -/
theorem C116_compressibility (ranks : ℕ) (hr : 0 < ranks) {eig : Eig (Fin N)} (hs : EigSpec eig) (tol beta mu : ℝ) (ht : 0 < tol)
    {kmesh : List (Lat n)} (hnd : kmesh.Nodup) (hall : ∀ k, k ∈ kmesh) {e : Lat n → Matrix (Fin N) (Fin N) ℂ}
    (he : ∀ k, (e k).IsHermitian) (c f : Fin N) :
    HasDerivAt (fun mu' : ℝ => densityAt eig beta e mu' c f) (∑ a, lindhard ranks eig tol beta mu kmesh e 0 0 a a c f) mu := by
  have h := (charges ranks hr hs tol beta mu ht hnd hall he (X := 1) (fun k => by simp) 0 c f).1
  rw [norm_zero, if_pos ht, Matrix.transpose_one, one_mul] at h
  have e1 : ∑ a, lindhard ranks eig tol beta mu kmesh e 0 0 a a c f
      = leftCharge 1 (lindhard ranks eig tol beta mu kmesh e 0 0) c f := by
    simp [leftCharge, Matrix.one_apply]
  rw [e1, h]
  exact densityAt_deriv hs beta mu he c f

end Static

/-! ## RPA and screened interaction -/

theorem leftCharge_vec (X : Matrix o o ℂ) (chi : T4 o) (c f : o) :
    leftCharge X chi c f = Matrix.vecMul (fun p : o × o => X p.1 p.2) (Rpa.pairMat chi) (c, f) := by
  rw [Matrix.vecMul, dotProduct, Fintype.sum_prod_type]
  rfl

theorem rightCharge_vec (X : Matrix o o ℂ) (chi : T4 o) (a b : o) :
    rightCharge X chi a b = Matrix.mulVec (Rpa.pairMat chi) (fun p : o × o => X p.1 p.2) (a, b) := by
  rw [Matrix.mulVec, dotProduct, Fintype.sum_prod_type]
  refine Finset.sum_congr rfl fun c _ => Finset.sum_congr rfl fun f _ => ?_
  exact mul_comm _ _

theorem rpa_left {X : Matrix o o ℂ} {chi0 U : T4 o} (hdet : IsUnit (1 - Rpa.pairMat chi0 * Rpa.pairMat U).det)
    (h : ∀ c f, leftCharge X chi0 c f = 0) (c f : o) : leftCharge X (Rpa.rpaPoint chi0 U) c f = 0 := by
  have h0 : Matrix.vecMul (fun p : o × o => X p.1 p.2) (Rpa.pairMat chi0) = 0 := by
    funext p
    rw [← leftCharge_vec]
    exact h p.1 p.2
  have h1 := Rpa.rpa_eq_of_unit (Rpa.pairMat chi0) (Rpa.pairMat U) hdet
  rw [leftCharge_vec, Rpa.rpaPoint, Rpa.pairMat_matTensor, h1, Matrix.vecMul_add, h0, Matrix.mul_assoc, ← Matrix.vecMul_vecMul,
    h0, Matrix.zero_vecMul]
  simp

theorem rpa_right {X : Matrix o o ℂ} {chi0 U : T4 o} (h : ∀ a b, rightCharge X chi0 a b = 0) (a b : o) :
    rightCharge X (Rpa.rpaPoint chi0 U) a b = 0 := by
  have h0 : Matrix.mulVec (Rpa.pairMat chi0) (fun p : o × o => X p.1 p.2) = 0 := by
    funext p
    rw [← rightCharge_vec]
    exact h p.1 p.2
  rw [rightCharge_vec, Rpa.rpaPoint, Rpa.pairMat_matTensor, ← Matrix.mulVec_mulVec, h0, Matrix.mulVec_zero]
  rfl

variable {Om : Type*} [DecidableEq Om]

/-- C116: the RPA susceptibility of a Lindhard bubble has no response of a conserved operator at zero momentum and nonzero
frequency, whatever the interaction. -/
theorem C116_rpa (ranks : ℕ) (hr : 0 < ranks) {eig : Eig o} (hs : EigSpec eig) (tol beta mu : ℝ) (ht : 0 < tol)
    {kmesh : List (Lat n)} (hnd : kmesh.Nodup) (hall : ∀ k, k ∈ kmesh) {e : Lat n → Matrix o o ℂ}
    (he : ∀ k, (e k).IsHermitian) (htr : TimeReversal e) {X : Matrix o o ℂ} (hX : Conserved e X)
    (mesh : List (Om × Lat n)) (hm : mesh.Nodup) (z : Om → ℂ) (U : T4 o) (w : Om) (hw : (w, 0) ∈ mesh) (hz : tol ≤ ‖z w‖)
    (hdet : IsUnit (1 - Rpa.pairMat (lindhard ranks eig tol beta mu kmesh e (z w) 0) * Rpa.pairMat U).det) (c f : o) :
    leftCharge X (Rpa.solveRpaPH ranks mesh (fun p => lindhard ranks eig tol beta mu kmesh e (z p.1) p.2) U (w, 0)) c f = 0 ∧
      rightCharge X (Rpa.solveRpaPH ranks mesh (fun p => lindhard ranks eig tol beta mu kmesh e (z p.1) p.2) U (w, 0)) c f = 0 := by
  rw [Rpa.solveRpaPH_apply ranks hr mesh hm _ _ _ hw]
  have h := C116_no_response ranks hr hs tol beta mu ht hnd hall he htr hX (z w) hz
  exact ⟨rpa_left hdet (fun c f => (h c f).1) c f, rpa_right (fun c f => (h c f).2) c f⟩

/-- C116: an interaction between conserved charges is not screened at zero momentum and nonzero frequency. The polarisation is
any multiple of the Lindhard bubble. -/
theorem C116_unscreened (ranks : ℕ) (hr : 0 < ranks) {eig : Eig o} (hs : EigSpec eig) (tol beta mu : ℝ) (ht : 0 < tol)
    {kmesh : List (Lat n)} (hnd : kmesh.Nodup) (hall : ∀ k, k ∈ kmesh) {e : Lat n → Matrix o o ℂ}
    (he : ∀ k, (e k).IsHermitian) (htr : TimeReversal e) (s : ℂ)
    (mesh : List (Om × Lat n)) (hm : mesh.Nodup) (z : Om → ℂ) (V : Rpa.Bare Om (Lat n) o ℂ) (w : Om) (hw : (w, 0) ∈ mesh)
    (hz : tol ≤ ‖z w‖) (hV : ∀ c f, Conserved e (Matrix.of fun a b => V.at w 0 a b c f)) :
    ∃ res, Rpa.screenedBubble ranks mesh kmesh kmesh (fun p => s • lindhard ranks eig tol beta mu kmesh e (z p.1) p.2) V = .ok res ∧
      res (w, 0) = V.at w 0 := by
  refine ⟨_, if_neg (by simp), ?_⟩
  rw [C02_distributedAssign ranks hr _ hm, if_pos hw]
  have h0 : Rpa.pairMat (s • lindhard ranks eig tol beta mu kmesh e (z w) 0) * Rpa.pairMat (V.at w 0) = 0 := by
    ext p q
    have h := (C116_no_response ranks hr hs tol beta mu ht hnd hall he htr (hV q.1 q.2) (z w) hz p.1 p.2).2
    have h1 := rightCharge_smul (Matrix.of fun a b => V.at w 0 a b q.1 q.2) s (lindhard ranks eig tol beta mu kmesh e (z w) 0) p.1 p.2
    rw [h, mul_zero, rightCharge_vec] at h1
    rw [Matrix.mul_apply]
    exact h1
  rw [Rpa.screenedBubblePoint, h0, sub_zero, inv_one, Matrix.mul_one]
  rfl

end Verif.Lindhard
