import Verif.Bse.Model
import Verif.Parallel.Props
import Verif.Rpa.Lemmas

/-!
# Helper lemmas for channels and Bethe-Salpeter equations
-/

namespace Verif.Bse

variable {F : Type*} [Field F] {o : Type*} [Fintype o] [DecidableEq o]
variable {ν : Type*} [Fintype ν] [DecidableEq ν]

set_option linter.unusedSectionVars false

theorem chMat_chTensor (ch : Channel) (m : Matrix (ν × o × o) (ν × o × o) F) :
    chMat ch (chTensor ch m) = m := by cases ch <;> rfl

theorem chTensor_chMat (ch : Channel) (t : T6 ν o F) : chTensor ch (chMat ch t) = t := by
  cases ch <;> rfl

theorem chMat_injective (ch : Channel) {s t : T6 ν o F} (h : chMat ch s = chMat ch t) : s = t := by
  rw [← chTensor_chMat ch s, h, chTensor_chMat]

theorem chMat_sub (ch : Channel) (s t : T6 ν o F) : chMat ch (s - t) = chMat ch s - chMat ch t := by
  cases ch <;> rfl

theorem chMat_add (ch : Channel) (s t : T6 ν o F) : chMat ch (s + t) = chMat ch s + chMat ch t := by
  cases ch <;> rfl

theorem chMat_product (ch : Channel) (A B : T6 ν o F) :
    chMat ch (product ch A B) = chMat ch A * chMat ch B := chMat_chTensor _ _

theorem chMat_inverse (ch : Channel) (A : T6 ν o F) :
    chMat ch (inverse ch A) = (chMat ch A)⁻¹ := chMat_chTensor _ _

theorem chMat_identity (ch : Channel) : chMat ch (identity ch : T6 ν o F) = 1 := chMat_chTensor _ _

theorem chMat_bsePoint (chi0 gamma : T6 ν o F) : chMat .PH (bsePoint chi0 gamma)
    = (1 - chMat .PH chi0 * chMat .PH gamma)⁻¹ * chMat .PH chi0 := by
  rw [bsePoint, chMat_product, chMat_inverse, chMat_sub, chMat_identity, chMat_product]

variable {m : Type*} [Fintype m] [DecidableEq m]

theorem bse_eq_of_unit (X U : Matrix m m F) (h : IsUnit (1 - X * U).det) :
    (1 - X * U)⁻¹ * X = X + X * U * ((1 - X * U)⁻¹ * X) := by
  have h1 : (1 - X * U) * ((1 - X * U)⁻¹ * X) = X := by
    rw [← Matrix.mul_assoc, Matrix.mul_nonsing_inv _ h, Matrix.one_mul]
  rw [Matrix.sub_mul, Matrix.one_mul, sub_eq_iff_eq_add] at h1
  exact h1

theorem solve_of_eq {D X Y : Matrix m m F} (h : IsUnit D.det) (e : D * X = Y) : X = D⁻¹ * Y := by
  rw [← e, ← Matrix.mul_assoc, Matrix.nonsing_inv_mul _ h, Matrix.one_mul]

/-- vertex extraction followed by the Bethe-Salpeter equation -/
theorem bse_roundtrip (X C : Matrix m m F) (hX : IsUnit X.det) (hC : IsUnit C.det) :
    (1 - X * (X⁻¹ - C⁻¹))⁻¹ * X = C := by
  have h1 : 1 - X * (X⁻¹ - C⁻¹) = X * C⁻¹ := by
    rw [Matrix.mul_sub, Matrix.mul_nonsing_inv _ hX]; abel
  have hu : IsUnit (X * C⁻¹).det := by
    rw [Matrix.det_mul]
    exact hX.mul (Matrix.isUnit_nonsing_inv_det _ hC)
  rw [h1]
  symm
  apply solve_of_eq hu
  rw [Matrix.mul_assoc, Matrix.nonsing_inv_mul _ hC, Matrix.mul_one]

/-- Bethe-Salpeter equation followed by vertex extraction -/
theorem vertex_roundtrip (X G : Matrix m m F) (hX : IsUnit X.det) (hD : IsUnit (1 - X * G).det) :
    X⁻¹ - ((1 - X * G)⁻¹ * X)⁻¹ = G := by
  rw [Matrix.mul_inv_rev, Matrix.nonsing_inv_nonsing_inv _ hD, Matrix.mul_sub, Matrix.mul_one,
    ← Matrix.mul_assoc, Matrix.nonsing_inv_mul _ hX, Matrix.one_mul]
  abel

/-- the algebraic relation between the ordinary and the dual Bethe-Salpeter equation -/
theorem dual_denominator (X C N : Matrix m m F) (hX : IsUnit X.det) (hC : IsUnit C.det) :
    1 - (X + N) * (X⁻¹ - C⁻¹) = (1 - N * (X⁻¹ * ((C - X) * X⁻¹))) * (X * C⁻¹) := by
  have hx := Matrix.mul_nonsing_inv _ hX
  have hx' := Matrix.nonsing_inv_mul _ hX
  have hc := Matrix.mul_nonsing_inv _ hC
  have e1 : (1 - N * (X⁻¹ * ((C - X) * X⁻¹))) * (X * C⁻¹)
      = X * C⁻¹ - N * (X⁻¹ * ((C - X) * (X⁻¹ * X) * C⁻¹)) := by noncomm_ring
  have e2 : (C - X) * (X⁻¹ * X) * C⁻¹ = 1 - X * C⁻¹ := by
    rw [hx', Matrix.mul_one, Matrix.sub_mul, hc]
  have e3 : X⁻¹ * (1 - X * C⁻¹) = X⁻¹ - C⁻¹ := by
    rw [Matrix.mul_sub, Matrix.mul_one, ← Matrix.mul_assoc, hx', Matrix.one_mul]
  have e4 : 1 - (X + N) * (X⁻¹ - C⁻¹) = 1 - (X * X⁻¹ - X * C⁻¹) - N * (X⁻¹ - C⁻¹) := by noncomm_ring
  rw [e1, e2, e3, e4, hx]
  abel

theorem dual_bse (X C N : Matrix m m F) (hX : IsUnit X.det) (hC : IsUnit C.det)
    (hD : IsUnit (1 - (X + N) * (X⁻¹ - C⁻¹)).det) :
    (1 - (X + N) * (X⁻¹ - C⁻¹))⁻¹ * (X + N)
      = C + (C * X⁻¹) * ((1 - N * (X⁻¹ * ((C - X) * X⁻¹)))⁻¹ * N) * (X⁻¹ * C) := by
  have hx' := Matrix.nonsing_inv_mul _ hX
  have hc' := Matrix.nonsing_inv_mul _ hC
  have hden := dual_denominator X C N hX hC
  set D := 1 - N * (X⁻¹ * ((C - X) * X⁻¹)) with hDdef
  have hDu : IsUnit D.det := by
    rw [hden, Matrix.det_mul] at hD
    exact isUnit_of_mul_isUnit_left hD
  symm
  apply solve_of_eq hD
  rw [hden, Matrix.mul_add]
  have e1 : D * (X * C⁻¹) * C = D * X := by
    rw [Matrix.mul_assoc, Matrix.mul_assoc, hc', Matrix.mul_one]
  have e2 : D * (X * C⁻¹) * (C * X⁻¹ * (D⁻¹ * N) * (X⁻¹ * C)) = N * (X⁻¹ * C) := by
    have : D * (X * C⁻¹) * (C * X⁻¹ * (D⁻¹ * N) * (X⁻¹ * C))
        = D * (X * (C⁻¹ * C) * X⁻¹) * D⁻¹ * N * (X⁻¹ * C) := by noncomm_ring
    rw [this, hc', Matrix.mul_one, Matrix.mul_nonsing_inv _ hX, Matrix.mul_one,
      Matrix.mul_nonsing_inv _ hDu, Matrix.one_mul]
  rw [e1, e2, hDdef]
  have e3 : (1 - N * (X⁻¹ * ((C - X) * X⁻¹))) * X + N * (X⁻¹ * C)
      = X - N * (X⁻¹ * ((C - X) * (X⁻¹ * X))) + N * (X⁻¹ * C) := by noncomm_ring
  have e4 : N * (X⁻¹ * ((C - X) * 1)) = N * (X⁻¹ * C) - N * (X⁻¹ * X) := by noncomm_ring
  rw [e3, hx', e4, hx', Matrix.mul_one]
  abel

end Verif.Bse
