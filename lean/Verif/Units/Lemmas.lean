import Verif.Parallel.Model
import Verif.Rpa.Model
import Verif.Bse.Model
import Mathlib.LinearAlgebra.Matrix.NonsingularInverse

/-!
# Homogeneity of the building blocks, for C126
-/

set_option linter.unusedSectionVars false

noncomputable section

namespace Verif.Units

open Verif.Parallel

section Parallel

variable {R P C M : Type*} [DecidableEq P] [Semiring R] [AddCommMonoid M] [Module R M]

theorem rankAssign_smul (c : R) (arr : List P) (f : P → M) :
    rankAssign arr (fun p => c • f p) = fun p => c • rankAssign arr f p := by
  have h : ∀ (l : List P) (o : P → M), l.foldl (fun out p => Function.update out p (c • f p)) (fun p => c • o p)
      = fun p => c • l.foldl (fun out p => Function.update out p (f p)) o p := by
    intro l
    induction l with
    | nil => intro o; rfl
    | cons a l ih =>
      intro o
      rw [List.foldl_cons, List.foldl_cons, ← ih]
      congr 1
      funext p
      by_cases hp : p = a
      · subst hp; simp
      · simp [Function.update_of_ne hp]
  have := h arr fun _ => 0
  simp only [smul_zero] at this
  exact this

theorem distributedAssign_smul (c : R) (r : ℕ) (mesh : List P) (f : P → M) :
    distributedAssign r mesh (fun p => c • f p) = fun p => c • distributedAssign r mesh f p := by
  funext p
  simp only [distributedAssign, allReduce, rankAssign_smul, Finset.smul_sum]

theorem distributedAccumulate_smul (c : R) (r : ℕ) (mesh : List P) (f : P → C → M) :
    distributedAccumulate r mesh (fun p x => c • f p x) = fun x => c • distributedAccumulate r mesh f x := by
  have h : ∀ (l : List P) (o : C → M), l.foldl (fun out p => fun x => out x + c • f p x) (fun x => c • o x)
      = fun x => c • l.foldl (fun out p => fun x => out x + f p x) o x := by
    intro l
    induction l with
    | nil => intro o; rfl
    | cons a l ih =>
      intro o
      rw [List.foldl_cons, List.foldl_cons, ← ih]
      congr 1
      funext x
      rw [smul_add]
  funext x
  simp only [distributedAccumulate, allReduce, rankAccumulate, Finset.smul_sum]
  refine Finset.sum_congr rfl fun i _ => ?_
  have := congrFun (h (mpiView mesh r i) fun _ => 0) x
  simp only [smul_zero] at this
  exact this

end Parallel

variable {F : Type*} [Field F] {n : Type*} [Fintype n] [DecidableEq n]

/-- also for a singular matrix, whose inverse is zero -/
theorem inv_smul_all (A : Matrix n n F) {l : F} (hl : l ≠ 0) : (l • A)⁻¹ = l⁻¹ • A⁻¹ := by
  by_cases h : IsUnit A.det
  · exact Matrix.inv_smul' A (_root_.Units.mk0 l hl) h
  · rw [Matrix.nonsing_inv_apply_not_isUnit _ h, smul_zero, Matrix.nonsing_inv_apply_not_isUnit]
    rw [Matrix.det_smul]
    intro h'
    exact h (isUnit_of_mul_isUnit_right h')

/-! ## Channel matrices -/

section Bse

open Verif.Bse

variable {o : Type*} [Fintype o] [DecidableEq o] {ν : Type*} [Fintype ν] [DecidableEq ν]

theorem chMat_smul (ch : Channel) (a : F) (t : T6 ν o F) : chMat ch (a • t) = a • chMat ch t := by
  cases ch <;> rfl

theorem chTensor_smul (ch : Channel) (a : F) (m : Matrix (ν × o × o) (ν × o × o) F) :
    chTensor ch (a • m) = a • chTensor ch m := by
  cases ch <;> rfl

theorem inverse_smul (ch : Channel) {a : F} (ha : a ≠ 0) (t : T6 ν o F) : inverse ch (a • t) = a⁻¹ • inverse ch t := by
  rw [inverse, chMat_smul, inv_smul_all _ ha, chTensor_smul]
  rfl

theorem product_smul (ch : Channel) (a b : F) (s t : T6 ν o F) : product ch (a • s) (b • t) = (a * b) • product ch s t := by
  rw [product, chMat_smul, chMat_smul, Matrix.smul_mul, Matrix.mul_smul, smul_smul, chTensor_smul]
  rfl

theorem bsePoint_smul {a : F} (ha : a ≠ 0) (chi0 gamma : T6 ν o F) :
    bsePoint (a • chi0) (a⁻¹ • gamma) = a • bsePoint chi0 gamma := by
  rw [bsePoint, product_smul, mul_inv_cancel₀ ha, one_smul, bsePoint]
  have := product_smul (F := F) .PH 1 a (inverse .PH (identity .PH - product .PH chi0 gamma)) chi0
  rwa [one_smul, one_mul] at this

theorem diagEmbed_smul (a : F) (chi0 : ν → T4 o F) : diagEmbed (a • chi0) = a • diagEmbed chi0 := by
  funext n m
  simp only [diagEmbed, Pi.smul_apply]
  split_ifs
  · rfl
  · rw [smul_zero]

theorem traceNu_smul (a b : F) (beta : F) (chi : T6 ν o F) :
    traceNu (b * beta) (a • chi) = (a / (b * b)) • traceNu beta chi := by
  funext p q r s
  simp only [traceNu, Pi.smul_apply, smul_eq_mul, ← Finset.mul_sum]
  rw [div_mul_div_comm]
  congr 1
  ring

theorem scalarProductPH_smul (a b c : F) (vL : ν → T4 o F) (M : T6 ν o F) (vR : ν → T4 o F) :
    scalarProductPH (a • vL) (b • M) (c • vR) = (a * b * c) • scalarProductPH vL M vR := by
  funext p q r s
  have h : ∀ (x : ν → T4 o F) (m : T6 ν o F) (y : ν → T4 o F), scalarProductPH x m y p q r s
      = ∑ j : ν × o × o, (∑ i : ν × o × o, x i.1 i.2.1 i.2.2 q p * m i.1 j.1 i.2.1 i.2.2 j.2.1 j.2.2)
        * y j.1 j.2.2 j.2.1 r s := fun _ _ _ => rfl
  rw [Pi.smul_apply, Pi.smul_apply, Pi.smul_apply, Pi.smul_apply, smul_eq_mul, h, h, Finset.mul_sum]
  refine Finset.sum_congr rfl fun i _ => ?_
  rw [Finset.sum_mul, Finset.sum_mul, Finset.mul_sum]
  refine Finset.sum_congr rfl fun j _ => ?_
  simp only [Pi.smul_apply, smul_eq_mul]
  ring

end Bse

/-! ## Pair matrices -/

section Rpa

open Verif.Rpa

variable {o : Type*} [Fintype o] [DecidableEq o]

theorem pairMat_smul (a : F) (t : Rpa.T4 o F) : pairMat (a • t) = a • pairMat t := rfl

theorem matTensor_smul (a : F) (m : Matrix (o × o) (o × o) F) : matTensor (a • m) = a • matTensor m := rfl

theorem one_sub_mul_smul {a : F} (ha : a ≠ 0) (x y : Rpa.T4 o F) :
    1 - pairMat (a⁻¹ • x) * pairMat (a • y) = 1 - pairMat x * pairMat y := by
  rw [pairMat_smul, pairMat_smul, Matrix.smul_mul, Matrix.mul_smul, smul_smul, inv_mul_cancel₀ ha, one_smul]

theorem rpaPoint_smul {a : F} (ha : a ≠ 0) (chi0 U : Rpa.T4 o F) :
    rpaPoint (a⁻¹ • chi0) (a • U) = a⁻¹ • rpaPoint chi0 U := by
  rw [rpaPoint, one_sub_mul_smul ha, pairMat_smul, Matrix.mul_smul, matTensor_smul]
  rfl

theorem screenedBubblePoint_smul {a : F} (ha : a ≠ 0) (chi V : Rpa.T4 o F) :
    screenedBubblePoint (a⁻¹ • chi) (a • V) = a • screenedBubblePoint chi V := by
  rw [screenedBubblePoint, one_sub_mul_smul ha, pairMat_smul, Matrix.smul_mul, matTensor_smul]
  rfl

theorem screenedGeneralizedPoint_smul {a : F} (ha : a ≠ 0) (chi V : Rpa.T4 o F) :
    screenedGeneralizedPoint (a⁻¹ • chi) (a • V) = a • screenedGeneralizedPoint chi V := by
  rw [screenedGeneralizedPoint, pairMat_smul, pairMat_smul, Matrix.mul_smul, Matrix.smul_mul, Matrix.mul_smul, smul_smul,
    mul_inv_cancel₀ ha, one_smul, ← smul_add, matTensor_smul]
  rfl

theorem screenedOptPoint_smul {a : F} (ha : a ≠ 0) (chi V : Rpa.T4 o F) :
    screenedOptPoint (a⁻¹ • chi) (a • V) = a • screenedOptPoint chi V := by
  have h : (fun p q r s => matTensor (1 : Matrix (o × o) (o × o) F) p q r s - ∑ e, ∑ f, (a⁻¹ • chi) p q e f * (a • V) e f r s)
      = fun p q r s => matTensor (1 : Matrix (o × o) (o × o) F) p q r s - ∑ e, ∑ f, chi p q e f * V e f r s := by
    funext p q r s
    congr 1
    refine Finset.sum_congr rfl fun e _ => Finset.sum_congr rfl fun f _ => ?_
    simp only [Pi.smul_apply, smul_eq_mul]
    rw [mul_mul_mul_comm, inv_mul_cancel₀ ha, one_mul]
  unfold screenedOptPoint
  dsimp only
  rw [h]
  funext p q r s
  simp only [Pi.smul_apply, smul_eq_mul, Finset.mul_sum, mul_assoc]

end Rpa

end Verif.Units
