import Verif.Rpa.Props
import Verif.Bse.Props
import Mathlib.Analysis.Matrix.Normed
import Mathlib.Analysis.SpecificLimits.Normed
import Mathlib.Analysis.Normed.Module.FiniteDimension

/-!
# C136: interactions in steps and in powers
-/

set_option linter.unusedSectionVars false

noncomputable section

namespace Verif.Steps

open Verif.Parallel

/-! ## The matrix equation `Y = X + X U Y` -/

section Algebra

variable {F : Type*} [Field F] {m : Type*} [Fintype m] [DecidableEq m]

/-- solution of `Y = X + X U Y` -/
def ladder (X U : Matrix m m F) : Matrix m m F := (1 - X * U)⁻¹ * X

theorem ladder_eq {X U : Matrix m m F} (h : IsUnit (1 - X * U).det) : ladder X U = X + X * U * ladder X U := Bse.bse_eq_of_unit X U h

theorem ladder_eq' {X U : Matrix m m F} (h : IsUnit (1 - X * U).det) : ladder X U = X + ladder X U * U * X := by
  have h' : IsUnit (1 - U * X).det := by rwa [← Rpa.isUnit_det_comm]
  have e : ladder X U * (1 - U * X) = X := by
    rw [ladder, Rpa.push_through X U h, Matrix.mul_assoc, Matrix.nonsing_inv_mul _ h', Matrix.mul_one]
  rw [Matrix.mul_sub, Matrix.mul_one, sub_eq_iff_eq_add] at e
  rw [Matrix.mul_assoc]
  exact e

theorem ladder_unique {X U Y : Matrix m m F} (h : IsUnit (1 - X * U).det) (e : Y = X + X * U * Y) : Y = ladder X U := by
  apply Bse.solve_of_eq h
  rw [Matrix.sub_mul, Matrix.one_mul, sub_eq_iff_eq_add]
  exact e

theorem denominator_steps {X U V : Matrix m m F} (h : IsUnit (1 - X * U).det) :
    1 - X * (U + V) = (1 - X * U) * (1 - ladder X U * V) := by
  rw [ladder, Matrix.mul_sub, Matrix.mul_one, ← Matrix.mul_assoc, ← Matrix.mul_assoc, Matrix.mul_nonsing_inv _ h, Matrix.one_mul,
    Matrix.mul_add]
  abel

theorem unit_steps {X U V : Matrix m m F} (h : IsUnit (1 - X * U).det) :
    IsUnit (1 - ladder X U * V).det ↔ IsUnit (1 - X * (U + V)).det := by
  rw [denominator_steps h, Matrix.det_mul, IsUnit.mul_iff]
  exact ⟨fun h' => ⟨h, h'⟩, fun h' => h'.2⟩

theorem ladder_steps {X U V : Matrix m m F} (h : IsUnit (1 - X * U).det) : ladder (ladder X U) V = ladder X (U + V) := by
  rw [ladder, ladder.eq_1 X (U + V), denominator_steps h, Matrix.mul_inv_rev, Matrix.mul_assoc]
  rfl

theorem ladder_zero (X : Matrix m m F) : ladder X 0 = X := by
  rw [ladder, Matrix.mul_zero, sub_zero, inv_one, Matrix.one_mul]

theorem ladder_sub {X U V : Matrix m m F} (hU : IsUnit (1 - X * U).det) (hV : IsUnit (1 - X * V).det) :
    ladder X V - ladder X U = ladder X U * (V - U) * ladder X V := by
  have e1 := ladder_eq' hU
  have e2 := ladder_eq hV
  have a : ladder X U * V * ladder X V = ladder X U * V * ladder X V := rfl
  have h1 : ladder X V = X + X * V * ladder X V := e2
  have h2 : ladder X U * V * ladder X V = X * V * ladder X V + ladder X U * U * X * V * ladder X V := by
    conv_lhs => rw [e1]
    noncomm_ring
  have h3 : ladder X U * U * ladder X V = ladder X U * U * X + ladder X U * U * X * V * ladder X V := by
    conv_lhs => rw [e2]
    noncomm_ring
  rw [Matrix.mul_sub, Matrix.sub_mul, h2, h3]
  rw [show X * V * ladder X V = ladder X V - X from by rw [eq_sub_iff_add_eq, add_comm]; exact e2.symm,
    show ladder X U * U * X = ladder X U - X from by rw [eq_sub_iff_add_eq, add_comm]; exact e1.symm]
  abel

theorem ladder_sub_bubble {X Y U : Matrix m m F} (hX : IsUnit (1 - X * U).det) (hY : IsUnit (1 - Y * U).det) :
    ladder Y U - ladder X U = (1 + ladder X U * U) * (Y - X) * (1 + U * ladder Y U) := by
  have e1 := ladder_eq' hX
  have e2 := ladder_eq hY
  have h1 : (1 + ladder X U * U) * X = ladder X U := by
    rw [Matrix.add_mul, Matrix.one_mul]
    exact e1.symm
  have h2 : Y * (1 + U * ladder Y U) = ladder Y U := by
    rw [Matrix.mul_add, Matrix.mul_one, ← Matrix.mul_assoc]
    exact e2.symm
  have e : (1 + ladder X U * U) * (Y - X) * (1 + U * ladder Y U) =
      (1 + ladder X U * U) * (Y * (1 + U * ladder Y U)) - (1 + ladder X U * U) * X * (1 + U * ladder Y U) := by noncomm_ring
  rw [e, h1, h2]
  noncomm_ring

theorem ladder_series {X U : Matrix m m F} (h : IsUnit (1 - X * U).det) (n : ℕ) :
    ladder X U = ∑ k ∈ Finset.range n, (X * U) ^ k * X + (X * U) ^ n * ladder X U := by
  induction n with
  | zero => rw [Finset.sum_range_zero, pow_zero, Matrix.one_mul, zero_add]
  | succ n ih =>
    rw [Finset.sum_range_succ, pow_succ]
    conv_lhs => rw [ih]
    conv_lhs => rw [show (X * U) ^ n * ladder X U = (X * U) ^ n * (X + X * U * ladder X U) from by rw [← ladder_eq h]]
    rw [Matrix.mul_add, ← Matrix.mul_assoc, add_assoc]

end Algebra

section Norm

variable {m : Type*} [Fintype m] [DecidableEq m]

attribute [local instance] Matrix.frobeniusNormedRing Matrix.frobeniusNormedSpace

theorem norm_unit {X U : Matrix m m ℂ} (h : ‖X‖ * ‖U‖ < 1) : IsUnit (1 - X * U).det := by
  rw [← Matrix.isUnit_iff_isUnit_det]
  have : CompleteSpace (Matrix m m ℂ) := FiniteDimensional.complete ℂ _
  exact isUnit_one_sub_of_norm_lt_one (lt_of_le_of_lt (norm_mul_le _ _) h)

theorem norm_ladder {X U : Matrix m m ℂ} (h : ‖X‖ * ‖U‖ < 1) : ‖ladder X U‖ ≤ ‖X‖ / (1 - ‖X‖ * ‖U‖) := by
  have h1 : ‖ladder X U‖ ≤ ‖X‖ + ‖X‖ * ‖U‖ * ‖ladder X U‖ := by
    conv_lhs => rw [ladder_eq (norm_unit h)]
    refine (norm_add_le _ _).trans (add_le_add_right ?_ _)
    exact (norm_mul_le _ _).trans (mul_le_mul_of_nonneg_right (norm_mul_le _ _) (norm_nonneg _))
  rw [le_div_iff₀ (by linarith)]
  linarith

theorem norm_pow_mul (A B : Matrix m m ℂ) (n : ℕ) : ‖A ^ n * B‖ ≤ ‖A‖ ^ n * ‖B‖ := by
  induction n with
  | zero => rw [pow_zero, pow_zero, Matrix.one_mul, one_mul]
  | succ n ih =>
    rw [pow_succ', pow_succ', Matrix.mul_assoc, mul_assoc]
    exact (norm_mul_le _ _).trans (mul_le_mul_of_nonneg_left ih (norm_nonneg _))

theorem norm_series {X U : Matrix m m ℂ} (h : ‖X‖ * ‖U‖ < 1) (n : ℕ) :
    ‖ladder X U - ∑ k ∈ Finset.range n, (X * U) ^ k * X‖ ≤ (‖X‖ * ‖U‖) ^ n * (‖X‖ / (1 - ‖X‖ * ‖U‖)) := by
  have e : ladder X U - ∑ k ∈ Finset.range n, (X * U) ^ k * X = (X * U) ^ n * ladder X U := by
    rw [sub_eq_iff_eq_add, add_comm]
    exact ladder_series (norm_unit h) n
  rw [e]
  refine (norm_pow_mul _ _ n).trans ?_
  exact mul_le_mul (pow_le_pow_left₀ (norm_nonneg _) (norm_mul_le _ _) n) (norm_ladder h) (norm_nonneg _)
    (pow_nonneg (mul_nonneg (norm_nonneg _) (norm_nonneg _)) n)

theorem norm_def (M : Matrix m m ℂ) : ‖M‖ = Real.sqrt (∑ p, ∑ q, ‖M p q‖ ^ 2) := by
  rw [Matrix.frobenius_norm_def, Real.sqrt_eq_rpow]
  simp only [Real.rpow_two]

end Norm

/-! ## RPA -/

section Rpa

open Verif.Rpa

variable {F : Type*} [Field F] {o : Type*} [Fintype o] [DecidableEq o] {P : Type*} [DecidableEq P]

theorem pairMat_rpaPoint (chi0 U : T4 o F) : pairMat (rpaPoint chi0 U) = ladder (pairMat chi0) (pairMat U) := rfl

theorem pairMat_add (s t : T4 o F) : pairMat (s + t) = pairMat s + pairMat t := rfl

theorem pairMat_sub (s t : T4 o F) : pairMat (s - t) = pairMat s - pairMat t := rfl

/-- C136: the RPA with the sum of two interactions is the RPA with the second interaction in which the RPA susceptibility of the first
takes the place of the bubble, at every point where the first step and one of the two results exist. -/
theorem C136_rpa_steps (r r1 r2 : ℕ) (hr : 0 < r) (h1 : 0 < r1) (h2 : 0 < r2) (mesh : List P) (hm : mesh.Nodup) (chi0 : P → T4 o F)
    (U V : T4 o F) (p : P) (hp : p ∈ mesh) (hU : IsUnit (1 - pairMat (chi0 p) * pairMat U).det) :
    solveRpaPH r2 mesh (solveRpaPH r1 mesh chi0 U) V p = solveRpaPH r mesh chi0 (U + V) p ∧
    (IsUnit (1 - pairMat (solveRpaPH r1 mesh chi0 U p) * pairMat V).det ↔ IsUnit (1 - pairMat (chi0 p) * pairMat (U + V)).det) := by
  rw [solveRpaPH_apply r2 h2 mesh hm _ V p hp, solveRpaPH_apply r1 h1 mesh hm _ U p hp, solveRpaPH_apply r hr mesh hm _ _ p hp]
  constructor
  · apply pairMat_injective
    rw [pairMat_rpaPoint, pairMat_rpaPoint, pairMat_rpaPoint, pairMat_add, ladder_steps hU]
  · rw [pairMat_rpaPoint, pairMat_add, unit_steps hU]

/-- C136: the RPA with the negative interaction undoes the RPA. -/
theorem C136_rpa_undo (r1 r2 : ℕ) (h1 : 0 < r1) (h2 : 0 < r2) (mesh : List P) (hm : mesh.Nodup) (chi0 : P → T4 o F)
    (U : T4 o F) (p : P) (hp : p ∈ mesh) (hU : IsUnit (1 - pairMat (chi0 p) * pairMat U).det) :
    solveRpaPH r2 mesh (solveRpaPH r1 mesh chi0 U) (-U) p = chi0 p := by
  rw [(C136_rpa_steps 1 r1 r2 one_pos h1 h2 mesh hm chi0 U (-U) p hp hU).1, add_neg_cancel]
  exact C14_rpa_noninteracting 1 one_pos mesh hm chi0 p hp

/-- C136: exact change of the RPA susceptibility with the interaction, `χ' - χ = χ (U' - U) χ'`. -/
theorem C136_rpa_change (r r' : ℕ) (hr : 0 < r) (hr' : 0 < r') (mesh : List P) (hm : mesh.Nodup) (chi0 : P → T4 o F)
    (U U' : T4 o F) (p : P) (hp : p ∈ mesh) (hU : IsUnit (1 - pairMat (chi0 p) * pairMat U).det)
    (hU' : IsUnit (1 - pairMat (chi0 p) * pairMat U').det) (a b c d : o) :
    solveRpaPH r' mesh chi0 U' p a b c d - solveRpaPH r mesh chi0 U p a b c d =
      ∑ e, ∑ f, ∑ g, ∑ h, solveRpaPH r mesh chi0 U p a b e f * (U' e f g h - U e f g h) * solveRpaPH r' mesh chi0 U' p g h c d := by
  rw [solveRpaPH_apply r hr mesh hm _ U p hp, solveRpaPH_apply r' hr' mesh hm _ U' p hp]
  have e := congrFun₂ (ladder_sub hU hU') (a, b) (c, d)
  rw [Matrix.sub_apply, Matrix.mul_assoc, Matrix.mul_apply, Fintype.sum_prod_type] at e
  refine e.trans (Finset.sum_congr rfl fun e _ => Finset.sum_congr rfl fun f _ => ?_)
  rw [Matrix.mul_apply, Finset.mul_sum, Fintype.sum_prod_type]
  refine Finset.sum_congr rfl fun g _ => Finset.sum_congr rfl fun h _ => ?_
  rw [mul_assoc]
  rfl

/-- C136: the same for `chi_rpa_spin` and `chi_rpa_charge` of `matrix_rpa.py`, which may be mixed with the sign of the charge channel. -/
theorem C136_matrix_rpa_steps (n : ℕ) (ord : List ℕ → List ℕ) (hord : ∀ l, (ord l).Perm l) (chi0 U V : T4 (Fin n) F) :
    (IsUnit (1 - pairMat chi0 * pairMat U).det →
      chiRpaSpin ord (chiRpaSpin ord chi0 U) V = chiRpaSpin ord chi0 (U + V) ∧
      chiRpaCharge ord (chiRpaSpin ord chi0 U) V = chiRpaSpin ord chi0 (U - V)) ∧
    (IsUnit (1 + pairMat chi0 * pairMat U).det →
      chiRpaCharge ord (chiRpaCharge ord chi0 U) V = chiRpaCharge ord chi0 (U + V) ∧
      chiRpaSpin ord (chiRpaCharge ord chi0 U) V = chiRpaSpin ord chi0 (V - U)) := by
  have es : ∀ c u : T4 (Fin n) F, chiRpaSpin ord c u = matTensor (ladder (pairMat c) (pairMat u)) := fun c u =>
    chiRpaSpin_eq n ord hord c u
  have ec : ∀ c u : T4 (Fin n) F, chiRpaCharge ord c u = matTensor (ladder (pairMat c) (-pairMat u)) := fun c u =>
    (chiRpaCharge_eq n ord c u).trans (chiRpaSpin_eq n ord hord c fun a b c d => -u a b c d)
  simp only [es, ec, pairMat_matTensor, pairMat_add, pairMat_sub]
  constructor
  · intro h
    rw [ladder_steps h, ladder_steps h, sub_eq_add_neg]
    exact ⟨rfl, rfl⟩
  · intro h
    have h' : IsUnit (1 - pairMat chi0 * -pairMat U).det := by
      rw [Matrix.mul_neg, sub_neg_eq_add]
      exact h
    rw [ladder_steps h', ladder_steps h', neg_add, sub_eq_add_neg, add_comm (-pairMat U) (pairMat V)]
    exact ⟨rfl, rfl⟩

/-! ## Screening -/

variable {W K : Type*} [DecidableEq W] [DecidableEq K]

theorem pairMat_screened {Pi V : T4 o F} (h : IsUnit (1 - pairMat Pi * pairMat V).det) :
    pairMat (screenedBubblePoint Pi V) = ladder (pairMat V) (pairMat Pi) := by
  rw [screenedBubblePoint, pairMat_matTensor, ladder, push_through]
  rwa [isUnit_det_comm]

theorem screened_steps {Pi Pi' V : T4 o F} (h : IsUnit (1 - pairMat Pi * pairMat V).det)
    (h' : IsUnit (1 - pairMat (Pi + Pi') * pairMat V).det) :
    screenedBubblePoint Pi' (screenedBubblePoint Pi V) = screenedBubblePoint (Pi + Pi') V := by
  have g : IsUnit (1 - pairMat V * pairMat Pi).det := by rwa [isUnit_det_comm]
  have g' : IsUnit (1 - pairMat V * (pairMat Pi + pairMat Pi')).det := by rwa [isUnit_det_comm]
  have g2 : IsUnit (1 - pairMat Pi' * pairMat (screenedBubblePoint Pi V)).det := by
    rw [isUnit_det_comm, pairMat_screened h, unit_steps g]
    exact g'
  apply pairMat_injective
  rw [pairMat_screened g2, pairMat_screened h, pairMat_screened h', ladder_steps g, pairMat_add]

/-- C136: screening with the sum of two polarisations is screening with the second of the interaction already screened with the first, as
in the constrained RPA. -/
theorem C136_screen_steps (r r1 r2 : ℕ) (hr : 0 < r) (h1 : 0 < r1) (h2 : 0 < r2) (mesh : List (W × K)) (hm : mesh.Nodup) (kmesh : List K)
    (Pi Pi' : W × K → T4 o F) (V : Bare W K o F) :
    ∃ U w w', screenedBubble r1 mesh kmesh kmesh Pi V = .ok U ∧
      screenedBubble r2 mesh kmesh kmesh Pi' (.dynamic fun w k => U (w, k)) = .ok w ∧
      screenedBubble r mesh kmesh kmesh (Pi + Pi') V = .ok w' ∧
      ∀ p ∈ mesh, IsUnit (1 - pairMat (Pi p) * pairMat (V.at p.1 p.2)).det →
        IsUnit (1 - pairMat (Pi p + Pi' p) * pairMat (V.at p.1 p.2)).det → w p = w' p := by
  refine ⟨_, _, _, if_neg (by simp), if_neg (by simp), if_neg (by simp), fun p hp hd hd' => ?_⟩
  rw [C02_distributedAssign r2 h2 _ hm, if_pos hp, C02_distributedAssign r hr _ hm, if_pos hp]
  change screenedBubblePoint (Pi' p) (distributedAssign r1 mesh _ (p.1, p.2)) = _
  rw [C02_distributedAssign r1 h1 _ hm, if_pos hp]
  exact screened_steps hd hd'

/-- C136: screening with the negative polarisation gives the bare interaction back. -/
theorem C136_unscreen (r1 r2 : ℕ) (h1 : 0 < r1) (h2 : 0 < r2) (mesh : List (W × K)) (hm : mesh.Nodup) (kmesh : List K)
    (Pi : W × K → T4 o F) (V : Bare W K o F) :
    ∃ U w, screenedBubble r1 mesh kmesh kmesh Pi V = .ok U ∧
      screenedBubble r2 mesh kmesh kmesh (-Pi) (.dynamic fun w k => U (w, k)) = .ok w ∧
      ∀ p ∈ mesh, IsUnit (1 - pairMat (Pi p) * pairMat (V.at p.1 p.2)).det → w p = V.at p.1 p.2 := by
  obtain ⟨U, w, w', e1, e2, e3, h⟩ := C136_screen_steps 1 r1 r2 one_pos h1 h2 mesh hm kmesh Pi (-Pi) V
  refine ⟨U, w, e1, e2, fun p hp hd => ?_⟩
  have z : Pi p + (-Pi) p = 0 := add_neg_cancel (Pi p)
  have z0 : pairMat (0 : T4 o F) = 0 := rfl
  rw [h p hp hd (by rw [z, z0, Matrix.zero_mul, sub_zero, Matrix.det_one]; exact isUnit_one)]
  have e : w' = _ := (Except.ok.inj ((if_neg (by simp)).symm.trans e3)).symm
  rw [e, C02_distributedAssign 1 one_pos _ hm, if_pos hp]
  change screenedBubblePoint (Pi p + (-Pi) p) _ = _
  rw [z]
  exact (C17_no_screening _).1

end Rpa

/-! ## Powers of the interaction -/

section Series

open Verif.Rpa Filter Topology

variable {o : Type*} [Fintype o] [DecidableEq o] {P : Type*} [DecidableEq P]

/-- term of order `n` in `U`, a chain `X U X U ... X` -/
def order (X U : T4 o ℂ) : ℕ → T4 o ℂ
  | 0 => X
  | n + 1 => fun a b c d => ∑ e, ∑ f, ∑ g, ∑ h, X a b e f * U e f g h * order X U n g h c d

/-- root of the sum of squares of all elements -/
def size4 (t : T4 o ℂ) : ℝ := Real.sqrt (∑ a, ∑ b, ∑ c, ∑ d, ‖t a b c d‖ ^ 2)

theorem pairMat_order (X U : T4 o ℂ) (n : ℕ) : pairMat (order X U n) = (pairMat X * pairMat U) ^ n * pairMat X := by
  induction n with
  | zero => rw [pow_zero, Matrix.one_mul]; rfl
  | succ n ih =>
    rw [pow_succ', Matrix.mul_assoc, ← ih]
    ext ⟨a, b⟩ ⟨c, d⟩
    rw [Matrix.mul_assoc, Matrix.mul_apply, Fintype.sum_prod_type]
    refine Finset.sum_congr rfl fun e _ => Finset.sum_congr rfl fun f _ => ?_
    rw [Matrix.mul_apply, Finset.mul_sum, Fintype.sum_prod_type]
    refine Finset.sum_congr rfl fun g _ => Finset.sum_congr rfl fun h _ => ?_
    rw [mul_assoc]
    rfl

theorem pairMat_sum (s : Finset ℕ) (t : ℕ → T4 o ℂ) : pairMat (∑ k ∈ s, t k) = ∑ k ∈ s, pairMat (t k) := by
  ext ⟨a, b⟩ ⟨c, d⟩
  rw [Matrix.sum_apply]
  change (∑ k ∈ s, t k) a b c d = ∑ k ∈ s, t k a b c d
  simp only [Finset.sum_apply]

attribute [local instance] Matrix.frobeniusNormedRing Matrix.frobeniusNormedSpace

theorem size4_eq (t : T4 o ℂ) : size4 t = ‖pairMat t‖ := by
  rw [norm_def, size4]
  simp only [Fintype.sum_prod_type]
  rfl

theorem le_size4 (t : T4 o ℂ) (a b c d : o) : ‖t a b c d‖ ≤ size4 t := by
  rw [size4_eq, norm_def]
  apply Real.le_sqrt_of_sq_le
  have h1 : ‖t a b c d‖ ^ 2 ≤ ∑ q, ‖pairMat t (a, b) q‖ ^ 2 :=
    Finset.single_le_sum (f := fun q => ‖pairMat t (a, b) q‖ ^ 2) (fun q _ => sq_nonneg _) (Finset.mem_univ (c, d))
  exact h1.trans (Finset.single_le_sum (f := fun p => ∑ q, ‖pairMat t p q‖ ^ 2) (fun p _ => Finset.sum_nonneg fun q _ => sq_nonneg _)
    (Finset.mem_univ (a, b)))

/-- the sum of the series and the error after `n` terms -/
theorem series4 {X U t : T4 o ℂ} (ht : pairMat t = ladder (pairMat X) (pairMat U)) (h : size4 X * size4 U < 1) :
    (∀ n, size4 (t - ∑ k ∈ Finset.range n, order X U k) ≤ (size4 X * size4 U) ^ n * (size4 X / (1 - size4 X * size4 U))) ∧
    ∀ a b c d, Tendsto (fun n => ∑ k ∈ Finset.range n, order X U k a b c d) atTop (𝓝 (t a b c d)) := by
  have key : ∀ n, size4 (t - ∑ k ∈ Finset.range n, order X U k) ≤ (size4 X * size4 U) ^ n * (size4 X / (1 - size4 X * size4 U)) := by
    intro n
    rw [size4_eq X, size4_eq U, size4_eq, pairMat_sub, ht, pairMat_sum]
    simp only [pairMat_order]
    rw [size4_eq X, size4_eq U] at h
    exact norm_series h n
  refine ⟨key, fun a b c d => ?_⟩
  rw [tendsto_iff_norm_sub_tendsto_zero]
  have h0 : 0 ≤ size4 X * size4 U := mul_nonneg (Real.sqrt_nonneg _) (Real.sqrt_nonneg _)
  have lim : Tendsto (fun n => (size4 X * size4 U) ^ n * (size4 X / (1 - size4 X * size4 U))) atTop (𝓝 0) := by
    have := (tendsto_pow_atTop_nhds_zero_of_lt_one h0 h).mul_const (size4 X / (1 - size4 X * size4 U))
    rwa [zero_mul] at this
  refine squeeze_zero (fun _ => norm_nonneg _) (fun n => ?_) lim
  have h1 := le_size4 (t - ∑ k ∈ Finset.range n, order X U k) a b c d
  have e : (t - ∑ k ∈ Finset.range n, order X U k) a b c d = t a b c d - ∑ k ∈ Finset.range n, order X U k a b c d := by
    change t a b c d - (∑ k ∈ Finset.range n, order X U k) a b c d = _
    simp only [Finset.sum_apply]
  rw [e, norm_sub_rev] at h1
  exact h1.trans (key n)

/-- C136: for a weak interaction `solve_rpa_PH` finds an invertible matrix and returns the sum of all chains of bubbles; after `n` terms
the error is at most of order `n` in the interaction. -/
theorem C136_rpa_series (r : ℕ) (hr : 0 < r) (mesh : List P) (hm : mesh.Nodup) (chi0 : P → T4 o ℂ) (U : T4 o ℂ) (p : P) (hp : p ∈ mesh)
    (h : size4 (chi0 p) * size4 U < 1) :
    IsUnit (1 - pairMat (chi0 p) * pairMat U).det ∧
    (∀ n, size4 (solveRpaPH r mesh chi0 U p - ∑ k ∈ Finset.range n, order (chi0 p) U k) ≤
      (size4 (chi0 p) * size4 U) ^ n * (size4 (chi0 p) / (1 - size4 (chi0 p) * size4 U))) ∧
    ∀ a b c d, Tendsto (fun n => ∑ k ∈ Finset.range n, order (chi0 p) U k a b c d) atTop (𝓝 (solveRpaPH r mesh chi0 U p a b c d)) := by
  refine ⟨?_, ?_⟩
  · rw [size4_eq, size4_eq] at h
    exact norm_unit h
  · rw [solveRpaPH_apply r hr mesh hm _ U p hp]
    exact series4 (pairMat_rpaPoint _ _) h

variable {W K : Type*} [DecidableEq W] [DecidableEq K]

/-- C136: for a weak interaction the screened interaction is the sum of all chains of bare interactions and bubbles. -/
theorem C136_screen_series (r : ℕ) (hr : 0 < r) (mesh : List (W × K)) (hm : mesh.Nodup) (kmesh : List K) (Pi : W × K → T4 o ℂ)
    (V : Bare W K o ℂ) : ∃ w, screenedBubble r mesh kmesh kmesh Pi V = .ok w ∧
      ∀ p ∈ mesh, size4 (V.at p.1 p.2) * size4 (Pi p) < 1 →
        IsUnit (1 - pairMat (Pi p) * pairMat (V.at p.1 p.2)).det ∧
        (∀ n, size4 (w p - ∑ k ∈ Finset.range n, order (V.at p.1 p.2) (Pi p) k) ≤
          (size4 (V.at p.1 p.2) * size4 (Pi p)) ^ n * (size4 (V.at p.1 p.2) / (1 - size4 (V.at p.1 p.2) * size4 (Pi p)))) ∧
        ∀ a b c d, Tendsto (fun n => ∑ k ∈ Finset.range n, order (V.at p.1 p.2) (Pi p) k a b c d) atTop (𝓝 (w p a b c d)) := by
  refine ⟨_, if_neg (by simp), fun p hp h => ?_⟩
  have hu : IsUnit (1 - pairMat (Pi p) * pairMat (V.at p.1 p.2)).det := by
    rw [isUnit_det_comm]
    have h' := h
    rw [size4_eq, size4_eq] at h'
    exact norm_unit h'
  refine ⟨hu, ?_⟩
  rw [C02_distributedAssign r hr _ hm, if_pos hp]
  exact series4 (pairMat_screened hu) h

end Series

/-! ## Bethe-Salpeter equation -/

section Bse

open Verif.Bse Filter Topology

section Algebra

variable {F : Type*} [Field F] {ν o : Type*} [Fintype ν] [DecidableEq ν] [Fintype o] [DecidableEq o] {W K : Type*} [DecidableEq W]
  [DecidableEq K]

theorem chMat_bse (chi0 gamma : T6 ν o F) : chMat .PH (bsePoint chi0 gamma) = ladder (chMat .PH chi0) (chMat .PH gamma) :=
  chMat_bsePoint chi0 gamma

/-- C136: two vertices may be switched on one after the other, and `solve_local_bse` applied to the results finds the vertex that was added. -/
theorem C136_bse_steps (chi0 gamma gamma' : W → T6 ν o F) (w : W) (hG : IsUnit (1 - chMat .PH (chi0 w) * chMat .PH (gamma w)).det) :
    bsePoint (bsePoint (chi0 w) (gamma w)) (gamma' w) = bsePoint (chi0 w) (gamma w + gamma' w) ∧
    (IsUnit (chMat .PH (chi0 w)).det → IsUnit (1 - chMat .PH (chi0 w) * chMat .PH (gamma w + gamma' w)).det →
      solveLocalBse (fun w => bsePoint (chi0 w) (gamma w)) (fun w => bsePoint (chi0 w) (gamma w + gamma' w)) w = gamma' w) := by
  have e : bsePoint (bsePoint (chi0 w) (gamma w)) (gamma' w) = bsePoint (chi0 w) (gamma w + gamma' w) := by
    apply chMat_injective .PH
    rw [chMat_bse, chMat_bse, chMat_bse, chMat_add, ladder_steps hG]
  refine ⟨e, fun h0 h1 => ?_⟩
  have hc : IsUnit (chMat .PH (bsePoint (chi0 w) (gamma w))).det := by
    rw [chMat_bse, ladder, Matrix.det_mul]
    exact (Matrix.isUnit_nonsing_inv_det _ hG).mul h0
  have hd : IsUnit (1 - chMat .PH (bsePoint (chi0 w) (gamma w)) * chMat .PH (gamma' w)).det := by
    rw [chMat_bse, unit_steps hG, ← chMat_add]
    exact h1
  have r := C24_vertex_roundtrip (fun w => bsePoint (chi0 w) (gamma w)) gamma' w hc hd
  rw [solveLocalBse] at r ⊢
  rw [← r, inverseIw, inverseIw, inverseIw, e]

/-- C136: exact change of the lattice susceptibility with the vertex. -/
theorem C136_bse_change (chi0 : W → ν → K → T4 o F) (gamma gamma' : W → T6 ν o F) (k : K) (w : W)
    (h : IsUnit (1 - chMat .PH (diagEmbed fun n => chi0 w n k) * chMat .PH (gamma w)).det)
    (h' : IsUnit (1 - chMat .PH (diagEmbed fun n => chi0 w n k) * chMat .PH (gamma' w)).det) :
    chiqFromChi0qAndGamma chi0 gamma' k w - chiqFromChi0qAndGamma chi0 gamma k w =
      productSpec .PH (chiqFromChi0qAndGamma chi0 gamma k w)
        (productSpec .PH (gamma' w - gamma w) (chiqFromChi0qAndGamma chi0 gamma' k w)) := by
  rw [← C22_product_formula, ← C22_product_formula]
  apply chMat_injective .PH
  rw [chMat_sub, chMat_product, chMat_product, chMat_sub, chiqFromChi0qAndGamma, chiqFromChi0qAndGamma, chMat_bse, chMat_bse,
    ladder_sub h h', Matrix.mul_assoc]

end Algebra

variable {ν o : Type*} [Fintype ν] [DecidableEq ν] [Fintype o] [DecidableEq o] {W K : Type*} [DecidableEq W] [DecidableEq K]

/-- term of order `n` in the vertex -/
def order6 (X U : T6 ν o ℂ) : ℕ → T6 ν o ℂ
  | 0 => X
  | n + 1 => productSpec .PH X (productSpec .PH U (order6 X U n))

/-- root of the sum of squares of all elements -/
def size6 (t : T6 ν o ℂ) : ℝ := Real.sqrt (∑ n, ∑ a, ∑ b, ∑ n', ∑ c, ∑ d, ‖t n n' a b d c‖ ^ 2)

theorem chMat_order (X U : T6 ν o ℂ) (n : ℕ) : chMat .PH (order6 X U n) = (chMat .PH X * chMat .PH U) ^ n * chMat .PH X := by
  induction n with
  | zero => rw [pow_zero, Matrix.one_mul]; rfl
  | succ n ih =>
    rw [order6, ← C22_product_formula, ← C22_product_formula, chMat_product, chMat_product, ih, pow_succ', Matrix.mul_assoc,
      Matrix.mul_assoc]

theorem chMat_sum (s : Finset ℕ) (t : ℕ → T6 ν o ℂ) : chMat .PH (∑ k ∈ s, t k) = ∑ k ∈ s, chMat .PH (t k) := by
  ext ⟨n, a, b⟩ ⟨n', c, d⟩
  rw [Matrix.sum_apply]
  change (∑ k ∈ s, t k) n n' a b d c = ∑ k ∈ s, t k n n' a b d c
  simp only [Finset.sum_apply]

attribute [local instance] Matrix.frobeniusNormedRing Matrix.frobeniusNormedSpace

theorem size6_eq (t : T6 ν o ℂ) : size6 t = ‖chMat .PH t‖ := by
  rw [norm_def, size6]
  simp only [Fintype.sum_prod_type]
  rfl

theorem le_size6 (t : T6 ν o ℂ) (n n' : ν) (a b c d : o) : ‖t n n' a b c d‖ ≤ size6 t := by
  rw [size6_eq, norm_def]
  apply Real.le_sqrt_of_sq_le
  have h1 : ‖t n n' a b c d‖ ^ 2 ≤ ∑ q, ‖chMat .PH t (n, a, b) q‖ ^ 2 :=
    Finset.single_le_sum (f := fun q => ‖chMat .PH t (n, a, b) q‖ ^ 2) (fun q _ => sq_nonneg _) (Finset.mem_univ (n', d, c))
  exact h1.trans (Finset.single_le_sum (f := fun p => ∑ q, ‖chMat .PH t p q‖ ^ 2) (fun p _ => Finset.sum_nonneg fun q _ => sq_nonneg _)
    (Finset.mem_univ (n, a, b)))

/-- C136: for a weak vertex the lattice susceptibility is the sum of all ladders. -/
theorem C136_bse_series (chi0 : W → ν → K → T4 o ℂ) (gamma : W → T6 ν o ℂ) (k : K) (w : W)
    (h : size6 (diagEmbed fun n => chi0 w n k) * size6 (gamma w) < 1) :
    IsUnit (1 - chMat .PH (diagEmbed fun n => chi0 w n k) * chMat .PH (gamma w)).det ∧
    (∀ n, size6 (chiqFromChi0qAndGamma chi0 gamma k w - ∑ j ∈ Finset.range n, order6 (diagEmbed fun n => chi0 w n k) (gamma w) j) ≤
      (size6 (diagEmbed fun n => chi0 w n k) * size6 (gamma w)) ^ n *
        (size6 (diagEmbed fun n => chi0 w n k) / (1 - size6 (diagEmbed fun n => chi0 w n k) * size6 (gamma w)))) ∧
    ∀ n n' a b c d, Tendsto (fun j => ∑ i ∈ Finset.range j, order6 (diagEmbed fun n => chi0 w n k) (gamma w) i n n' a b c d) atTop
      (𝓝 (chiqFromChi0qAndGamma chi0 gamma k w n n' a b c d)) := by
  have hn := h
  rw [size6_eq, size6_eq] at hn
  rw [chiqFromChi0qAndGamma]
  generalize (diagEmbed fun n => chi0 w n k : T6 ν o ℂ) = X at *
  generalize gamma w = G at *
  have key : ∀ n, size6 (bsePoint X G - ∑ j ∈ Finset.range n, order6 X G j) ≤
      (size6 X * size6 G) ^ n * (size6 X / (1 - size6 X * size6 G)) := by
    intro n
    rw [size6_eq X, size6_eq G, size6_eq, chMat_sub, chMat_bse, chMat_sum]
    simp only [chMat_order]
    exact norm_series hn n
  refine ⟨norm_unit hn, key, fun n n' a b c d => ?_⟩
  rw [tendsto_iff_norm_sub_tendsto_zero]
  have h0 : 0 ≤ size6 X * size6 G := mul_nonneg (Real.sqrt_nonneg _) (Real.sqrt_nonneg _)
  have lim : Tendsto (fun n => (size6 X * size6 G) ^ n * (size6 X / (1 - size6 X * size6 G))) atTop (𝓝 0) := by
    have := (tendsto_pow_atTop_nhds_zero_of_lt_one h0 h).mul_const (size6 X / (1 - size6 X * size6 G))
    rwa [zero_mul] at this
  refine squeeze_zero (fun _ => norm_nonneg _) (fun j => ?_) lim
  have h1 := le_size6 (bsePoint X G - ∑ i ∈ Finset.range j, order6 X G i) n n' a b c d
  have e : (bsePoint X G - ∑ i ∈ Finset.range j, order6 X G i) n n' a b c d =
      bsePoint X G n n' a b c d - ∑ i ∈ Finset.range j, order6 X G i n n' a b c d := by
    change bsePoint X G n n' a b c d - (∑ i ∈ Finset.range j, order6 X G i) n n' a b c d = _
    simp only [Finset.sum_apply]
  rw [e, norm_sub_rev] at h1
  exact h1.trans (key j)

end Bse

/-! ## Cases that meet the hypotheses -/

/-- one orbital with bubble `x` -/
def one (x : ℂ) : Rpa.T4 (Fin 1) ℂ := fun _ _ _ _ => x

theorem size4_one (x : ℂ) : size4 (one x) = ‖x‖ := by
  simp [size4, one]

/-- `C136_rpa_series`, `C136_screen_series` with bubble 1/2 and interaction 1 -/
example : size4 (one (1 / 2)) * size4 (one 1) < 1 := by
  rw [size4_one, size4_one]
  norm_num

theorem one_unit {x u : ℂ} (h : ‖x‖ * ‖u‖ < 1) : IsUnit (1 - Rpa.pairMat (one x) * Rpa.pairMat (one u)).det := by
  rw [← size4_one, ← size4_one, size4_eq, size4_eq] at h
  exact norm_unit h

/-- `C136_rpa_steps`: both steps change the result, which is `(1/2)/(1 - 1/2 - 1/4) = 2` -/
example : IsUnit (1 - Rpa.pairMat (one (1 / 2)) * Rpa.pairMat (one 1)).det ∧
    IsUnit (1 - Rpa.pairMat (one (1 / 2)) * Rpa.pairMat (one 1 + one (1 / 2))).det ∧
    Rpa.rpaPoint (one (1 / 2)) (one 1) = one 1 ∧ Rpa.rpaPoint (one 1) (one (1 / 2)) = one 2 ∧
    Rpa.rpaPoint (one (1 / 2)) (one 1 + one (1 / 2)) = one 2 := by
  have key : ∀ x u y : ℂ, ‖x‖ * ‖u‖ < 1 → y = x + x * u * y → Rpa.rpaPoint (one x) (one u) = one y := by
    intro x u y h e
    apply Rpa.pairMat_injective
    rw [pairMat_rpaPoint]
    symm
    apply ladder_unique (one_unit h)
    ext ⟨a, b⟩ ⟨c, d⟩
    rw [Matrix.add_apply, Matrix.mul_apply]
    simp only [Matrix.mul_apply, Fintype.sum_prod_type, Finset.univ_unique, Finset.sum_singleton]
    exact e
  have e : one 1 + one (1 / 2) = one (3 / 2) := by
    funext a b c d
    change (1 : ℂ) + 1 / 2 = 3 / 2
    norm_num
  rw [e]
  refine ⟨one_unit (by norm_num), one_unit (by norm_num), key _ _ _ (by norm_num) (by norm_num), key _ _ _ (by norm_num) (by norm_num),
    key _ _ _ (by norm_num) (by norm_num)⟩

/-- two frequencies, one orbital: constant vertex `g`, bubble `x` -/
def two (g : ℂ) : Bse.T6 (Fin 2) (Fin 1) ℂ := fun _ _ _ _ _ _ => g

/-- `C136_bse_series`: bubble 1/4 at two frequencies, vertex 1 between all of them -/
example : size6 (Bse.diagEmbed fun _ : Fin 2 => one (1 / 4)) * size6 (two 1) < 1 := by
  have e1 : size6 (Bse.diagEmbed fun _ : Fin 2 => one (1 / 4)) = Real.sqrt (1 / 8) := by
    rw [size6]
    congr 1
    simp [Bse.diagEmbed, one, Fin.sum_univ_two]
    norm_num
  have e2 : size6 (two 1) = Real.sqrt 4 := by
    rw [size6]
    congr 1
    simp [two]
    norm_num
  rw [e1, e2, ← Real.sqrt_mul (by norm_num), Real.sqrt_lt' one_pos]
  norm_num

end Verif.Steps
