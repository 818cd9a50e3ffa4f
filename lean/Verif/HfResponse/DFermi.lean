import Verif.HfResponse.Props
import Mathlib.Analysis.SpecialFunctions.Exponential

/-!
# The derivative of the Fermi function of a matrix in the eigenbasis

In the eigenbasis of the matrix the derivative multiplies every entry by the divided difference of the Fermi
function. It follows that minus the derivative is a positive definite form.
-/

noncomputable section

namespace Verif.HfResponse

open Matrix Filter Topology
open scoped Matrix.Norms.Operator

variable {n : ℕ} {κ : Type*} [Fintype κ]

set_option linter.unusedSectionVars false

/-- divided difference of the Fermi function -/
def divDiff (beta x y : ℝ) : ℝ :=
  if x = y then -beta * (HartreeFock.fermi beta x * (1 - HartreeFock.fermi beta x))
  else (HartreeFock.fermi beta x - HartreeFock.fermi beta y) / (x - y)

theorem fermi_pos (beta x : ℝ) : 0 < HartreeFock.fermi beta x := by
  unfold HartreeFock.fermi
  positivity

theorem fermi_lt_one (beta x : ℝ) : HartreeFock.fermi beta x < 1 := by
  have h := fermi_mul_exp beta x
  have h1 := fermi_pos beta x
  have h2 := Real.exp_pos (beta * x)
  nlinarith [mul_pos h2 h1]

theorem fermi_lt {beta x y : ℝ} (hb : 0 < beta) (h : x < y) :
    HartreeFock.fermi beta y < HartreeFock.fermi beta x := by
  unfold HartreeFock.fermi
  have h1 : Real.exp (beta * x) < Real.exp (beta * y) := Real.exp_lt_exp.2 (by nlinarith)
  have h2 := Real.exp_pos (beta * x)
  exact one_div_lt_one_div_of_lt (by linarith) (by linarith)

theorem divDiff_neg {beta : ℝ} (hb : 0 < beta) (x y : ℝ) : divDiff beta x y < 0 := by
  unfold divDiff
  split_ifs with h
  · have h1 := fermi_pos beta x
    have h2 := fermi_lt_one beta x
    have := mul_pos hb (mul_pos h1 (sub_pos.2 h2))
    linarith
  · rcases lt_or_gt_of_ne h with h | h
    · have := fermi_lt hb h
      exact div_neg_of_pos_of_neg (by linarith) (by linarith)
    · have := fermi_lt hb h
      exact div_neg_of_neg_of_pos (by linarith) (by linarith)

theorem divDiff_comm (beta x y : ℝ) : divDiff beta x y = divDiff beta y x := by
  unfold divDiff
  by_cases h : x = y
  · subst h; rfl
  · rw [if_neg h, if_neg (Ne.symm h), ← neg_div_neg_eq]
    congr 1 <;> ring

/-- conjugation with an invertible matrix -/
theorem fermiMatrix_conj (beta : ℝ) (S T h : Matrix (Fin n) (Fin n) ℂ) (h1 : S * T = 1) (h2 : T * S = 1) :
    fermiMatrix beta (S * h * T) = S * fermiMatrix beta h * T := by
  have hu : IsUnit S := ⟨⟨S, T, h1, h2⟩, rfl⟩
  have hT : S⁻¹ = T := Matrix.inv_eq_right_inv h1
  have hS : T⁻¹ = S := Matrix.inv_eq_right_inv h2
  have e : NormedSpace.exp ((beta : ℂ) • (S * h * T)) + 1 = S * (NormedSpace.exp ((beta : ℂ) • h) + 1) * T := by
    have : (beta : ℂ) • (S * h * T) = S * ((beta : ℂ) • h) * S⁻¹ := by
      rw [hT, Matrix.mul_smul, Matrix.smul_mul]
    rw [this, Matrix.exp_conj _ _ hu, hT, mul_add, add_mul, mul_one, h1]
  rw [fermiMatrix, e, Matrix.mul_inv_rev, Matrix.mul_inv_rev, hT, hS, fermiMatrix, mul_assoc]

/-- the derivative is a limit along the real line, for every direction -/
theorem dFermi_unique (beta : ℝ) {h : Matrix (Fin n) (Fin n) ℂ} (hh : h.IsHermitian)
    {X D : Matrix (Fin n) (Fin n) ℂ}
    (hd : HasDerivAt (fun t : ℝ => fermiMatrix beta (h + (t : ℂ) • X)) D 0) : dFermi beta h X = D :=
  (hasDerivAt_line beta hh X).unique hd

theorem dFermi_conj (beta : ℝ) {h : Matrix (Fin n) (Fin n) ℂ} (hh : h.IsHermitian)
    (V X : Matrix (Fin n) (Fin n) ℂ) (h1 : Vᴴ * V = 1) (h2 : V * Vᴴ = 1) :
    dFermi beta (V * h * Vᴴ) (V * X * Vᴴ) = V * dFermi beta h X * Vᴴ := by
  have hH : (V * h * Vᴴ).IsHermitian := Matrix.isHermitian_mul_mul_conjTranspose V hh
  refine dFermi_unique beta hH ?_
  have hd := hasDerivAt_line beta hh X
  have hd' := (hd.const_mul V).mul_const Vᴴ
  refine hd'.congr_of_eventuallyEq (Eventually.of_forall fun t => ?_)
  change fermiMatrix beta (V * h * Vᴴ + (t : ℂ) • (V * X * Vᴴ))
    = V * fermiMatrix beta (h + (t : ℂ) • X) * Vᴴ
  rw [← fermiMatrix_conj beta V Vᴴ _ h2 h1, mul_add, add_mul, Matrix.mul_smul, Matrix.smul_mul]

theorem diag_diag (e : Fin n → ℝ) : Lindhard.Diag (diagonal fun i => (e i : ℂ)) (e, 1) := by
  refine ⟨by simp, by simp, by simp⟩

theorem diag_isHermitian (e : Fin n → ℝ) : (diagonal fun i => (e i : ℂ)).IsHermitian := by
  unfold Matrix.IsHermitian
  rw [Matrix.diagonal_conjTranspose]
  congr 1
  funext i
  simp

theorem fermiMatrix_diagonal (beta : ℝ) (e : Fin n → ℝ) :
    fermiMatrix beta (diagonal fun i => (e i : ℂ)) = diagonal fun i => (HartreeFock.fermi beta (e i) : ℂ) := by
  rw [fermiMatrix_of_diag beta (diag_diag e)]
  simp [Lindhard.matFun]

theorem unit_eq_single (k l : Fin n) : unit k l = Matrix.single k l (1 : ℂ) := by
  ext i j
  simp only [unit, Matrix.single_apply, eq_comm]

theorem unit_mul_diagonal (k l : Fin n) (d : Fin n → ℂ) :
    unit k l * diagonal d = d l • unit k l := by
  ext i j
  rw [Matrix.mul_diagonal, Matrix.smul_apply, unit, smul_eq_mul]
  split_ifs with h
  · rw [h.2]; ring
  · ring

theorem diagonal_mul_unit (k l : Fin n) (d : Fin n → ℂ) :
    diagonal d * unit k l = d k • unit k l := by
  ext i j
  rw [Matrix.diagonal_mul, Matrix.smul_apply, unit, smul_eq_mul]
  split_ifs with h
  · rw [h.1]
  · ring

theorem unit_sq {k l : Fin n} (h : k ≠ l) : unit k l * unit k l = 0 := by
  rw [unit_eq_single, Matrix.single_mul_single_of_ne _ _ _ _ h.symm]

/-- two different levels: the shifted matrix is similar to the unshifted one -/
theorem dFermi_unit_ne (beta : ℝ) (e : Fin n → ℝ) {k l : Fin n} (h : e k ≠ e l) :
    dFermi beta (diagonal fun i => (e i : ℂ)) (unit k l) = (divDiff beta (e k) (e l) : ℂ) • unit k l := by
  have hkl : k ≠ l := fun hc => h (by rw [hc])
  have hne : ((e l : ℂ) - e k) ≠ 0 := by
    rw [sub_ne_zero]; exact_mod_cast h.symm
  have hne' : ((e k : ℂ) - e l) ≠ 0 := by
    rw [sub_ne_zero]; exact_mod_cast h
  refine dFermi_unique beta (diag_isHermitian e) ?_
  have key : ∀ t : ℝ, fermiMatrix beta ((diagonal fun i => (e i : ℂ)) + (t : ℂ) • unit k l)
      = (diagonal fun i => (HartreeFock.fermi beta (e i) : ℂ))
        + (t : ℂ) • ((divDiff beta (e k) (e l) : ℂ) • unit k l) := by
    intro t
    let s : ℂ := (t : ℂ) / ((e l : ℂ) - e k)
    have hz : unit k l * unit k l = 0 := unit_sq hkl
    have h1 : (1 + s • unit k l) * (1 - s • unit k l) = 1 := by
      rw [mul_sub, mul_one, add_mul, one_mul, Matrix.smul_mul, Matrix.mul_smul, hz]
      simp
    have h2 : (1 - s • unit k l) * (1 + s • unit k l) = 1 := by
      rw [mul_add, mul_one, sub_mul, one_mul, Matrix.smul_mul, Matrix.mul_smul, hz]
      simp
    have conj : ∀ d : Fin n → ℂ, (1 + s • unit k l) * diagonal d * (1 - s • unit k l)
        = diagonal d + (s * (d l - d k)) • unit k l := by
      intro d
      rw [add_mul, one_mul, Matrix.smul_mul, unit_mul_diagonal, mul_sub, mul_one, add_mul,
        Matrix.mul_smul, diagonal_mul_unit, Matrix.mul_smul, Matrix.smul_mul, Matrix.smul_mul, hz]
      simp only [smul_zero, add_zero, smul_smul]
      rw [mul_sub, sub_smul]
      abel
    have e1 : (diagonal fun i => (e i : ℂ)) + (t : ℂ) • unit k l
        = (1 + s • unit k l) * (diagonal fun i => (e i : ℂ)) * (1 - s • unit k l) := by
      rw [conj]
      congr 2
      simp only [s]
      field_simp
    rw [e1, fermiMatrix_conj beta _ _ _ h1 h2, fermiMatrix_diagonal, conj, smul_smul]
    congr 2
    rw [divDiff, if_neg h]
    simp only [s]
    push_cast
    rw [div_mul_eq_mul_div, mul_div_assoc', div_eq_div_iff hne hne']
    ring
  have hf : (fun t : ℝ => fermiMatrix beta ((diagonal fun i => (e i : ℂ)) + (t : ℂ) • unit k l))
      = fun t : ℝ => (diagonal fun i => (HartreeFock.fermi beta (e i) : ℂ))
        + (t : ℂ) • ((divDiff beta (e k) (e l) : ℂ) • unit k l) := funext key
  rw [hf]
  have h1 : HasDerivAt (fun t : ℝ => (t : ℂ)) 1 0 := Complex.ofRealCLM.hasDerivAt
  exact ((h1.smul_const ((divDiff beta (e k) (e l) : ℂ) • unit k l)).const_add _).congr_deriv (by simp)

/-- a direction that commutes with the matrix -/
theorem dFermi_commute (beta : ℝ) {h X : Matrix (Fin n) (Fin n) ℂ} (hh : h.IsHermitian) (hc : Commute h X) :
    dFermi beta h X = -(fermiMatrix beta h * (NormedSpace.exp ((beta : ℂ) • h) * ((beta : ℂ) • X))
      * fermiMatrix beta h) := by
  refine dFermi_unique beta hh ?_
  have hE : HasDerivAt (fun t : ℝ => NormedSpace.exp ((beta : ℂ) • (h + (t : ℂ) • X)) + 1)
      (NormedSpace.exp ((beta : ℂ) • h) * ((beta : ℂ) • X)) 0 := by
    have h1 : HasDerivAt (fun t : ℝ => NormedSpace.exp (t • ((beta : ℂ) • X))) ((beta : ℂ) • X) 0 := by
      have := hasDerivAt_exp_smul_const (𝕂 := ℝ) ((beta : ℂ) • X) (0 : ℝ)
      refine this.congr_deriv ?_
      rw [zero_smul, NormedSpace.exp_zero, one_mul]
    have h2 := (h1.const_mul (NormedSpace.exp ((beta : ℂ) • h))).add_const (1 : Matrix (Fin n) (Fin n) ℂ)
    refine h2.congr_of_eventuallyEq (Eventually.of_forall fun t => ?_)
    change NormedSpace.exp ((beta : ℂ) • (h + (t : ℂ) • X)) + 1
      = NormedSpace.exp ((beta : ℂ) • h) * NormedSpace.exp (t • ((beta : ℂ) • X)) + 1
    have hcm : Commute ((beta : ℂ) • h) (t • ((beta : ℂ) • X)) := by
      have := (hc.smul_left (beta : ℂ)).smul_right (beta : ℂ)
      exact this.smul_right t
    rw [← Matrix.exp_add_of_commute _ _ hcm, smul_add]
    congr 3
    rw [smul_comm, Complex.coe_smul]
  have hu := isUnit_exp_add_one beta hh
  have hI := (hasFDerivAt_ringInverse (𝕜 := ℝ) hu.unit)
  have hI' : HasFDerivAt (Ring.inverse : Matrix (Fin n) (Fin n) ℂ → Matrix (Fin n) (Fin n) ℂ)
      (-ContinuousLinearMap.mulLeftRight ℝ (Matrix (Fin n) (Fin n) ℂ) ↑hu.unit⁻¹ ↑hu.unit⁻¹)
      (NormedSpace.exp ((beta : ℂ) • (h + ((0 : ℝ) : ℂ) • X)) + 1) := by
    rw [Complex.ofReal_zero, zero_smul, add_zero]
    exact hI
  have hcomp := hI'.comp_hasDerivAt (0 : ℝ) hE
  have hinv : (↑hu.unit⁻¹ : Matrix (Fin n) (Fin n) ℂ) = fermiMatrix beta h := by
    rw [fermiMatrix]
    exact (Matrix.inv_eq_right_inv (hu.mul_val_inv)).symm
  have hres := hcomp.congr_of_eventuallyEq (f₁ := fun t : ℝ => fermiMatrix beta (h + (t : ℂ) • X))
    (Eventually.of_forall fun t => by
      simp only [fermiMatrix, Function.comp, Matrix.nonsing_inv_eq_ringInverse])
  refine hres.congr_deriv ?_
  rw [hinv]
  rfl

theorem dFermi_unit_eq (beta : ℝ) (e : Fin n → ℝ) {k l : Fin n} (h : e k = e l) :
    dFermi beta (diagonal fun i => (e i : ℂ)) (unit k l) = (divDiff beta (e k) (e l) : ℂ) • unit k l := by
  have hc : Commute (diagonal fun i => (e i : ℂ)) (unit k l) := by
    change _ * _ = _ * _
    rw [diagonal_mul_unit, unit_mul_diagonal, h]
  rw [dFermi_commute beta (diag_isHermitian e) hc, fermiMatrix_diagonal, exp_of_diag beta (diag_diag e)]
  have e1 : Lindhard.matFun (e, (1 : Matrix (Fin n) (Fin n) ℂ)) (fun x => (Real.exp (beta * x) : ℂ))
      = diagonal fun i => (Real.exp (beta * e i) : ℂ) := by simp [Lindhard.matFun]
  rw [e1, Matrix.mul_smul, diagonal_mul_unit, Matrix.mul_smul, Matrix.mul_smul, diagonal_mul_unit,
    Matrix.smul_mul, Matrix.smul_mul, Matrix.smul_mul, unit_mul_diagonal]
  simp only [smul_smul, ← neg_smul]
  congr 1
  rw [divDiff, if_pos h, ← h]
  have hf := fermi_mul_exp beta (e k)
  have hf' : Real.exp (beta * e k) * HartreeFock.fermi beta (e k) = 1 - HartreeFock.fermi beta (e k) := by
    linarith
  rw [← hf']
  push_cast
  ring

/-- in the eigenbasis the derivative is a multiplication with the divided differences -/
theorem dFermi_diagonal (beta : ℝ) (e : Fin n → ℝ) (X : Matrix (Fin n) (Fin n) ℂ) :
    dFermi beta (diagonal fun i => (e i : ℂ)) X = fun i j => (divDiff beta (e i) (e j) : ℂ) * X i j := by
  have hu : ∀ k l : Fin n, dFermi beta (diagonal fun i => (e i : ℂ)) (unit k l)
      = (divDiff beta (e k) (e l) : ℂ) • unit k l := by
    intro k l
    by_cases h : e k = e l
    · exact dFermi_unit_eq beta e h
    · exact dFermi_unit_ne beta e h
  ext i j
  rw [dFermi_sum]
  simp only [hu, Matrix.smul_apply, unit, smul_eq_mul]
  rw [Finset.sum_eq_single i, Finset.sum_eq_single j]
  · simp; ring
  · intro b _ hb; rw [if_neg fun h => hb h.2.symm]; ring
  · simp
  · intro a _ ha; exact Finset.sum_eq_zero fun b _ => by rw [if_neg fun h => ha h.1.symm]; ring
  · simp

/-- the derivative of the Fermi function at a hermitian matrix -/
theorem dFermi_eig (beta : ℝ) {h : Matrix (Fin n) (Fin n) ℂ} {p : (Fin n → ℝ) × Matrix (Fin n) (Fin n) ℂ}
    (hp : Lindhard.Diag h p) (X : Matrix (Fin n) (Fin n) ℂ) :
    dFermi beta h X = p.2 * (Matrix.of fun i j => (divDiff beta (p.1 i) (p.1 j) : ℂ) * (p.2ᴴ * X * p.2) i j)
      * p.2ᴴ := by
  obtain ⟨h1, h2, h3⟩ := hp
  have hX : X = p.2 * (p.2ᴴ * X * p.2) * p.2ᴴ := by
    calc X = (p.2 * p.2ᴴ) * X * (p.2 * p.2ᴴ) := by rw [h2, one_mul, mul_one]
      _ = _ := by noncomm_ring
  conv_lhs => rw [h3, hX]
  rw [dFermi_conj beta (diag_isHermitian p.1) p.2 _ h1 h2, dFermi_diagonal]
  rfl

end Verif.HfResponse
