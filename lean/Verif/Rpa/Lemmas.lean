import Verif.Rpa.Model
import Verif.Parallel.Props
import Mathlib.Tactic.NoncommRing
import Mathlib.Data.List.GetD
import Mathlib.LinearAlgebra.Matrix.SchurComplement
import Mathlib.Algebra.BigOperators.Ring.Finset

/-!
# Helper lemmas for the RPA models
-/

namespace Verif.Rpa

variable {F : Type*} [Field F] {o : Type*} [Fintype o] [DecidableEq o]

set_option linter.unusedSectionVars false

theorem pairMat_matTensor (m : Matrix (o × o) (o × o) F) : pairMat (matTensor m) = m := rfl

theorem matTensor_pairMat (t : T4 o F) : matTensor (pairMat t) = t := rfl

theorem pairMat_injective {s t : T4 o F} (h : pairMat s = pairMat t) : s = t := by
  rw [← matTensor_pairMat s, h, matTensor_pairMat]

theorem pairMat_mul_apply (A B : T4 o F) (a b c d : o) :
    (pairMat A * pairMat B) (a, b) (c, d) = ∑ e, ∑ f, A a b e f * B e f c d := by
  rw [Matrix.mul_apply, Fintype.sum_prod_type]
  rfl

/-- Exchange of the two indices inside both pairs. -/
def swapPairs (t : T4 o F) : T4 o F := fun a b c d => t b a d c

/-- exchange of the members of a pair, as a permutation matrix -/
def swapMat : Matrix (o × o) (o × o) F := (1 : Matrix (o × o) (o × o) F).submatrix Prod.swap id

theorem pairMat_swapLast (t : T4 o F) :
    pairMat (swapLast t) = (pairMat t).submatrix id (Equiv.prodComm o o) := rfl

theorem pairMat_swapPairs (t : T4 o F) :
    pairMat (swapPairs t) = (pairMat t).submatrix (Equiv.prodComm o o) (Equiv.prodComm o o) := rfl

theorem rpa_eq_of_unit (X U : Matrix (o × o) (o × o) F) (h : IsUnit (1 - X * U).det) :
    (1 - X * U)⁻¹ * X = X + X * U * ((1 - X * U)⁻¹ * X) := by
  have h1 : (1 - X * U) * ((1 - X * U)⁻¹ * X) = X := by
    rw [← Matrix.mul_assoc, Matrix.mul_nonsing_inv _ h, Matrix.one_mul]
  rw [Matrix.sub_mul, Matrix.one_mul, sub_eq_iff_eq_add] at h1
  exact h1

/-- `1 - X U` and `1 - U X` are invertible together. -/
theorem isUnit_det_comm {m : Type*} [Fintype m] [DecidableEq m] (X U : Matrix m m F) :
    (1 - X * U).det = (1 - U * X).det := Matrix.det_one_sub_mul_comm X U

theorem push_through {m : Type*} [Fintype m] [DecidableEq m] (X U : Matrix m m F)
    (h : IsUnit (1 - X * U).det) : (1 - X * U)⁻¹ * X = X * (1 - U * X)⁻¹ := by
  have h' : IsUnit (1 - U * X).det := by rwa [← isUnit_det_comm]
  have e : (1 - X * U) * X = X * (1 - U * X) := by noncomm_ring
  calc (1 - X * U)⁻¹ * X = (1 - X * U)⁻¹ * (X * ((1 - U * X) * (1 - U * X)⁻¹)) := by
        rw [Matrix.mul_nonsing_inv _ h', Matrix.mul_one]
    _ = (1 - X * U)⁻¹ * ((1 - X * U) * X) * (1 - U * X)⁻¹ := by
        rw [e]; simp only [Matrix.mul_assoc]
    _ = X * (1 - U * X)⁻¹ := by
        rw [← Matrix.mul_assoc, Matrix.nonsing_inv_mul _ h, Matrix.one_mul]

/-! ## the index list of matrix_rpa.py -/

theorem idxList_perm (n : ℕ) (ord : List ℕ → List ℕ) (hord : ∀ l, (ord l).Perm l) :
    (idxList n ord).Perm (List.range (n ^ 2)) := by
  unfold idxList
  have h : (List.range (n ^ 2)).filter
        (fun i => i ∉ (List.range (n ^ 2)).filter fun i => i % (n + 1) = 0)
      = (List.range (n ^ 2)).filter fun i => !decide (i % (n + 1) = 0) := by
    apply List.filter_congr
    intro x hx
    simp only [List.mem_filter, hx, true_and, decide_eq_true_eq]
    simp
  simp only [h]
  exact ((hord _).append_left _).trans
    (List.filter_append_perm (fun i => decide (i % (n + 1) = 0)) (List.range (n ^ 2)))

variable (n : ℕ) (ord : List ℕ → List ℕ) (hord : ∀ l, (ord l).Perm l)
include hord

theorem idxList_length : (idxList n ord).length = n * n := by
  rw [(idxList_perm n ord hord).length_eq, List.length_range, sq]

theorem idxList_nodup : (idxList n ord).Nodup :=
  (idxList_perm n ord hord).nodup_iff.2 List.nodup_range

theorem mem_idxList (i : ℕ) : i ∈ idxList n ord ↔ i < n * n := by
  rw [(idxList_perm n ord hord).mem_iff, List.mem_range, sq]

theorem idxVec_val (i : Fin (n * n)) : (idxVec n ord i : ℕ) = (idxList n ord).getD i 0 := by
  have hi : (i : ℕ) < (idxList n ord).length := by rw [idxList_length n ord hord]; exact i.2
  have : (idxList n ord).getD i 0 < n * n := by
    rw [← mem_idxList n ord hord, List.getD_eq_getElem _ _ hi]
    exact List.getElem_mem hi
  rw [idxVec, dif_pos this]

theorem idxPos_val (l : Fin (n * n)) : (idxPos n ord l : ℕ) = (idxList n ord).idxOf (l : ℕ) := by
  have hl : (l : ℕ) ∈ idxList n ord := (mem_idxList n ord hord _).2 l.2
  have : (idxList n ord).idxOf (l : ℕ) < n * n := by
    have := List.idxOf_lt_length_of_mem hl
    rwa [idxList_length n ord hord] at this
  rw [idxPos, dif_pos this]

theorem idxVec_idxPos (l : Fin (n * n)) : idxVec n ord (idxPos n ord l) = l := by
  have hl : (l : ℕ) ∈ idxList n ord := (mem_idxList n ord hord _).2 l.2
  apply Fin.ext
  rw [idxVec_val n ord hord, idxPos_val n ord hord,
    List.getD_eq_getElem _ _ (List.idxOf_lt_length_of_mem hl), List.getElem_idxOf]

theorem idxPos_idxVec (i : Fin (n * n)) : idxPos n ord (idxVec n ord i) = i := by
  have hi : (i : ℕ) < (idxList n ord).length := by rw [idxList_length n ord hord]; exact i.2
  apply Fin.ext
  rw [idxPos_val n ord hord, idxVec_val n ord hord, List.getD_eq_getElem _ _ hi,
    (idxList_nodup n ord hord).idxOf_getElem]

/-- the index list as a permutation -/
def idxEquiv : Fin (n * n) ≃ Fin (n * n) where
  toFun := idxVec n ord
  invFun := idxPos n ord
  left_inv := idxPos_idxVec n ord hord
  right_inv := idxVec_idxPos n ord hord

theorem tensorToMatrix_eq (t : T4 (Fin n) F) : tensorToMatrix ord t
    = (pairMat t).submatrix (((idxEquiv n ord hord).trans finProdFinEquiv.symm))
        ((idxEquiv n ord hord).trans finProdFinEquiv.symm) := rfl

theorem matrixToTensor_submatrix (M : Matrix (Fin n × Fin n) (Fin n × Fin n) F) :
    matrixToTensor ord (M.submatrix (((idxEquiv n ord hord).trans finProdFinEquiv.symm))
        ((idxEquiv n ord hord).trans finProdFinEquiv.symm)) = matTensor M := by
  funext a b c d
  simp only [matrixToTensor, reshapeTensor, Matrix.submatrix_apply, Equiv.trans_apply, matTensor]
  change M (finProdFinEquiv.symm (idxVec n ord (idxPos n ord (finProdFinEquiv (a, b)))))
    (finProdFinEquiv.symm (idxVec n ord (idxPos n ord (finProdFinEquiv (c, d))))) = M (a, b) (c, d)
  rw [idxVec_idxPos n ord hord, idxVec_idxPos n ord hord, Equiv.symm_apply_apply,
    Equiv.symm_apply_apply]

end Verif.Rpa
