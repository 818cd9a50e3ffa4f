import Verif.FitDlr.Moment
import Mathlib.Analysis.SpecialFunctions.Exponential
import Mathlib.Analysis.Complex.Basic
import Mathlib.Analysis.Complex.RealDeriv
import Mathlib.Analysis.Calculus.Deriv.Mul
import Mathlib.Analysis.Calculus.Deriv.Add
import Mathlib.Analysis.Calculus.Deriv.Comp

/-!
# C101: the boundary values of the imaginary time Green's function

The Green's function of a thermal state obeys the two relations that the constrained fit imposes
(`/repo/python/triqs_tprf/fitdlr.py:31-43`): the jump, and the relation of its slopes to the density matrix. The algebra of
operators is any Banach algebra with the canonical anticommutation relations, the trace any continuous cyclic functional.
-/

noncomputable section

set_option linter.unusedSectionVars false

namespace Verif.FitDlr

open Verif.Operators NormedSpace

variable {ι : Type} [LinearOrder ι] {A : Type} [NormedRing A] [NormedAlgebra ℂ A] [CompleteSpace A]

/-- the imaginary time Green's function `-Tr[exp(-beta H) c_a(tau) c^+_b] / Tr[exp(-beta H)]` -/
def thermalG (tr : A →L[ℂ] ℂ) (β : ℝ) (H : A) (e : Gen ι → A) (a b : ι) (τ : ℝ) : ℂ :=
  -tr (exp ((-β) • H) * (exp (τ • H) * e ⟨false, a⟩ * exp ((-τ) • H)) * e ⟨true, b⟩) / tr (exp ((-β) • H))

theorem exp_smul_mul_exp_neg_smul (H : A) (t : ℝ) : exp (t • H) * exp ((-t) • H) = 1 := by
  let _ := NormedAlgebra.restrictScalars ℚ ℂ A
  rw [← exp_add_of_commute (by exact ((Commute.refl H).smul_left t).smul_right (-t)), neg_smul, add_neg_cancel, exp_zero]

theorem exp_neg_smul_mul_exp_smul (H : A) (t : ℝ) : exp ((-t) • H) * exp (t • H) = 1 := by
  have := exp_smul_mul_exp_neg_smul H (-t)
  rwa [neg_neg] at this

theorem hasDerivAt_heisenberg (H x : A) (τ : ℝ) :
    HasDerivAt (fun t : ℝ => exp (t • H) * x * exp ((-t) • H)) (exp (τ • H) * (H * x - x * H) * exp ((-τ) • H)) τ := by
  have h1 : HasDerivAt (fun t : ℝ => exp (t • H)) (exp (τ • H) * H) τ := hasDerivAt_exp_smul_const H τ
  have h2 : HasDerivAt (fun t : ℝ => exp ((-t) • H)) (-(H * exp ((-τ) • H))) τ := by
    have h : HasDerivAt (fun t : ℝ => exp ((-t) • H)) ((-1 : ℝ) • (H * exp ((-τ) • H))) τ :=
      HasDerivAt.scomp (h := fun t : ℝ => -t) (g₁ := fun t : ℝ => exp (t • H)) τ (hasDerivAt_exp_smul_const' H (-τ)) (hasDerivAt_neg τ)
    rwa [neg_one_smul] at h
  have h3 := (h1.mul_const x).mul h2
  refine h3.congr_deriv ?_
  noncomm_ring

/-- C101, thermal state: for a Hamiltonian of constant, quadratic and quartic terms the Green's function has the fermionic jump, is
differentiable, and the sum of its slopes at the ends of the interval is the quadratic matrix plus the mean field at the density
matrix `-G(beta)`. -/
theorem C101_thermal {e : Gen ι → A} (he : CAR e) (fs : List ι) (hnd : fs.Nodup) (x : Op ι) (hx : Canonical x)
    (hform : ∀ m ∈ x.support, m = [] ∨ (∃ i j, m = K2 fs i j) ∨ IsQuartic fs m)
    (ts : List (Mono ι × ℂ)) (hts : Enumerates ts x) (h : Fin fs.length → Fin fs.length → ℂ) (Γ : T4 fs.length)
    (hh : quadraticMatrixFromOperator fs ts = .ok h) (hΓ : getRpaTensor fs ts = .ok Γ)
    (tr : A →L[ℂ] ℂ) (htr : ∀ y z, tr (y * z) = tr (z * y)) (β : ℝ) (hZ : tr (exp ((-β) • eval e x)) ≠ 0) :
    let G := fun (a b : Fin fs.length) => thermalG tr β (eval e x) e (fs.get a) (fs.get b)
    (∀ a b, G a b 0 + G a b β = if a = b then -1 else 0) ∧
    (∀ a b, Differentiable ℝ (G a b)) ∧
    ∀ a b, deriv (G a b) 0 + deriv (G a b) β = h a b + HartreeFock.meanField Γ (fun c d => -G c d β) a b := by
  intro G
  set H := eval e x with hH
  set R := exp ((-β) • H) with hR
  set φ : A →ₗ[ℂ] ℂ := (tr R)⁻¹ • (tr.toLinearMap.comp (LinearMap.mulLeft ℂ R)) with hφdef
  have hφ : ∀ y, φ y = tr (R * y) / tr R := by
    intro y
    rw [div_eq_inv_mul]
    rfl
  have hφ1 : φ 1 = 1 := by rw [hφ, mul_one, div_self hZ]
  have hG0 : ∀ a b, G a b 0 = -φ (e ⟨false, fs.get a⟩ * e ⟨true, fs.get b⟩) := by
    intro a b
    change -tr (R * (exp ((0 : ℝ) • H) * e ⟨false, fs.get a⟩ * exp ((-(0 : ℝ)) • H)) * e ⟨true, fs.get b⟩) / tr R = _
    simp only [zero_smul, neg_zero, exp_zero, one_mul, mul_one, hφ, neg_div, mul_assoc]
  have hGβ : ∀ a b, G a b β = -φ (e ⟨true, fs.get b⟩ * e ⟨false, fs.get a⟩) := by
    intro a b
    have : tr (R * (exp (β • H) * e ⟨false, fs.get a⟩ * R) * e ⟨true, fs.get b⟩)
        = tr (R * (e ⟨true, fs.get b⟩ * e ⟨false, fs.get a⟩)) := by
      rw [mul_assoc, mul_assoc (exp (β • H)), mul_assoc (exp (β • H)), ← mul_assoc R, hR, exp_neg_smul_mul_exp_smul, one_mul,
        mul_assoc, htr, mul_assoc]
    change -tr (R * (exp (β • H) * e ⟨false, fs.get a⟩ * R) * e ⟨true, fs.get b⟩) / tr R = _
    rw [this, hφ, neg_div]
  have hder : ∀ a b τ, HasDerivAt (G a b) (-tr (R * (exp (τ • H) * (H * e ⟨false, fs.get a⟩ - e ⟨false, fs.get a⟩ * H)
      * exp ((-τ) • H)) * e ⟨true, fs.get b⟩) / tr R) τ := by
    intro a b τ
    have h1 := ((hasDerivAt_heisenberg H (e ⟨false, fs.get a⟩) τ).const_mul R).mul_const (e ⟨true, fs.get b⟩)
    have h2 := (tr.restrictScalars ℝ).hasFDerivAt.comp_hasDerivAt τ h1
    exact (h2.neg).div_const (tr R)
  refine ⟨fun a b => ?_, fun a b τ => (hder a b τ).differentiableAt, fun a b => ?_⟩
  · rw [hG0, hGβ, ← neg_add, ← map_add, he, map_smul, hφ1]
    have : contraction (⟨false, fs.get a⟩ : Gen ι) ⟨true, fs.get b⟩ = if a = b then 1 else 0 := by
      simp [contraction, hnd.getElem_inj_iff, Fin.ext_iff]
    rw [this]
    split_ifs <;> simp
  · have key : deriv (G a b) 0 + deriv (G a b) β = φ (secondMoment e H (fs.get a) (fs.get b)) := by
      rw [(hder a b 0).deriv, (hder a b β).deriv]
      have h1 : R * (exp ((0 : ℝ) • H) * (H * e ⟨false, fs.get a⟩ - e ⟨false, fs.get a⟩ * H) * exp ((-(0 : ℝ)) • H))
          * e ⟨true, fs.get b⟩ = R * ((H * e ⟨false, fs.get a⟩ - e ⟨false, fs.get a⟩ * H) * e ⟨true, fs.get b⟩) := by
        simp only [zero_smul, neg_zero, exp_zero, one_mul, mul_one, mul_assoc]
      have h2 : tr (R * (exp (β • H) * (H * e ⟨false, fs.get a⟩ - e ⟨false, fs.get a⟩ * H) * exp ((-β) • H)) * e ⟨true, fs.get b⟩)
          = tr (R * (e ⟨true, fs.get b⟩ * (H * e ⟨false, fs.get a⟩ - e ⟨false, fs.get a⟩ * H))) := by
        rw [← hR, mul_assoc, mul_assoc (exp (β • H)), mul_assoc (exp (β • H)), ← mul_assoc R, hR, exp_neg_smul_mul_exp_smul,
          one_mul, mul_assoc, htr, mul_assoc]
      rw [h1, h2, ← add_div, ← neg_add, ← map_add, ← mul_add, ← map_neg, ← mul_neg, ← hφ]
      congr 1
      unfold secondMoment
      noncomm_ring
    rw [key, C101_moment he fs hnd x hx hform ts hts h Γ hh hΓ φ hφ1]
    simp only [hGβ, neg_neg]

end Verif.FitDlr
