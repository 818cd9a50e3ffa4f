import Verif.RpaTensor.Model
import Verif.Rpa.Props
import Mathlib.Tactic.FinCases
import Mathlib.LinearAlgebra.Matrix.Kronecker

/-!
# Helper lemmas for the spin/orbital tensors
-/

namespace Verif.RpaTensor

open Verif.Rpa (T4 pairMat matTensor rpaPoint solveRpaPH)

set_option linter.unusedSectionVars false

variable {n : ℕ}

@[simp] theorem spinOf_slot (fast : Bool) (s : Fin 2) (a : Fin n) :
    spinOf fast (slot fast s a) = s := by
  have ha := a.2
  have hn : 0 < n := by omega
  cases fast
  · apply Fin.ext
    simp only [spinOf, slot, Bool.false_eq_true, if_false]
    rw [Nat.mul_add_div hn, Nat.div_eq_of_lt ha, add_zero]
  · apply Fin.ext
    simp only [spinOf, slot, if_true]
    omega

@[simp] theorem orbOf_slot (fast : Bool) (s : Fin 2) (a : Fin n) :
    orbOf fast (slot fast s a) = a := by
  have ha := a.2
  cases fast
  · apply Fin.ext
    simp only [orbOf, slot, Bool.false_eq_true, if_false]
    rw [Nat.mul_add_mod, Nat.mod_eq_of_lt ha]
  · apply Fin.ext
    simp only [orbOf, slot, if_true]
    omega

@[simp] theorem slot_spinOf (fast : Bool) (i : Fin (2 * n)) :
    slot fast (spinOf fast i) (orbOf fast i) = i := by
  cases fast
  · apply Fin.ext
    simp only [spinOf, orbOf, slot, Bool.false_eq_true, if_false]
    exact Nat.div_add_mod _ _
  · apply Fin.ext
    simp only [spinOf, orbOf, slot, if_true]
    omega

/-- positions are (spin, orbital) pairs -/
def slotEquiv (fast : Bool) : Fin 2 × Fin n ≃ Fin (2 * n) where
  toFun p := slot fast p.1 p.2
  invFun i := (spinOf fast i, orbOf fast i)
  left_inv p := by simp
  right_inv i := by simp

theorem slot_cases (fast : Bool) (i : Fin (2 * n)) : ∃ s a, i = slot fast s a :=
  ⟨_, _, (slot_spinOf fast i).symm⟩

theorem slot_inj (fast : Bool) {s t : Fin 2} {a b : Fin n} :
    slot fast s a = slot fast t b ↔ s = t ∧ a = b := by
  constructor
  · intro h
    exact ⟨by simpa using congrArg (spinOf fast) h, by simpa using congrArg (orbOf fast) h⟩
  · rintro ⟨rfl, rfl⟩; rfl

theorem ext_block (fast : Bool) {X Y : T4 (Fin (2 * n)) ℂ}
    (h : ∀ s t u v, block fast X s t u v = block fast Y s t u v) : X = Y := by
  funext i j k l
  obtain ⟨s, a, rfl⟩ := slot_cases fast i
  obtain ⟨t, b, rfl⟩ := slot_cases fast j
  obtain ⟨u, c, rfl⟩ := slot_cases fast k
  obtain ⟨v, d, rfl⟩ := slot_cases fast l
  exact congrFun (congrFun (congrFun (congrFun (h s t u v) a) b) c) d

theorem block_setBlock (fast : Bool) (X : T4 (Fin (2 * n)) ℂ) (s t u v s' t' u' v' : Fin 2)
    (V : T4 (Fin n) ℂ) : block fast (setBlock fast X s t u v V) s' t' u' v'
      = if s' = s ∧ t' = t ∧ u' = u ∧ v' = v then V else block fast X s' t' u' v' := by
  funext a b c d
  simp only [block, setBlock, spinOf_slot, orbOf_slot]
  split_ifs <;> rfl

theorem block_zero (fast : Bool) (s t u v : Fin 2) :
    block fast (fun _ _ _ _ => 0 : T4 (Fin (2 * n)) ℂ) s t u v = 0 := rfl

/-- The spin blocks of an SU(2) symmetric tensor with charge part `C` and spin part `S`. -/
noncomputable def spinForm (C S : T4 (Fin n) ℂ) (s t u v : Fin 2) : T4 (Fin n) ℂ := fun a b c d =>
  (if s = t ∧ u = v then 1 / 2 * (C a b c d - S a b c d) else 0)
    + if s = v ∧ t = u then S a b c d else 0

theorem block_general (fast : Bool) (C S : T4 (Fin n) ℂ) (s t u v : Fin 2) :
    block fast (generalFromChargeSpin fast C S) s t u v = spinForm C S s t u v := by
  unfold generalFromChargeSpin
  simp only [block_setBlock, block_zero]
  fin_cases s <;> fin_cases t <;> fin_cases u <;> fin_cases v <;>
    (funext a b c d; simp [spinForm]) <;> first | ring1 | (left; norm_num)

theorem block_quartic (Uc Us : T4 (Fin n) ℂ) (s t u v : Fin 2) :
    block false (quarticFromChargeSpin Uc Us) s t u v
      = spinForm (fun a b c d => -Uc a b c d) Us s t u v := by
  unfold quarticFromChargeSpin
  simp only [List.foldl_cons, List.foldl_nil, quarticStep]
  simp only [block_setBlock, block_zero, if_true, Fin.isValue, zero_ne_one, one_ne_zero, if_false]
  fin_cases s <;> fin_cases t <;> fin_cases u <;> fin_cases v <;>
    (funext a b c d; simp [spinForm]) <;> ring1

theorem quartic_eq_general (Uc Us : T4 (Fin n) ℂ) :
    quarticFromChargeSpin Uc Us = generalFromChargeSpin false (fun a b c d => -Uc a b c d) Us :=
  ext_block false fun s t u v => by rw [block_quartic, block_general]

theorem spinForm_nonConserving (C S : T4 (Fin n) ℂ) (q : Fin 2 × Fin 2 × Fin 2 × Fin 2)
    (hq : q ∈ nonConserving) : spinForm C S q.1 q.2.1 q.2.2.1 q.2.2.2 = 0 := by
  simp only [nonConserving, List.mem_cons, List.not_mem_nil, or_false] at hq
  rcases hq with rfl | rfl | rfl | rfl | rfl | rfl | rfl | rfl | rfl | rfl <;>
    (funext a b c d; simp [spinForm])

/-! ## The spin structure as a matrix algebra -/

section algebra

open Kronecker

variable {p : Type*} [Fintype p] [DecidableEq p]

/-- projector (times two) on the spin singlet pair -/
def singlet : Matrix (Fin 2 × Fin 2) (Fin 2 × Fin 2) ℂ :=
  Matrix.of fun x y => if x.1 = x.2 ∧ y.1 = y.2 then 1 else 0

/-- exchange of the two spins of a pair -/
def exchange : Matrix (Fin 2 × Fin 2) (Fin 2 × Fin 2) ℂ :=
  Matrix.of fun x y => if x.1 = y.2 ∧ x.2 = y.1 then 1 else 0

theorem singlet_singlet : singlet * singlet = (2 : ℂ) • singlet := by
  ext ⟨s, t⟩ ⟨u, v⟩
  rw [Matrix.mul_apply, Fintype.sum_prod_type]
  fin_cases s <;> fin_cases t <;> fin_cases u <;> fin_cases v <;>
    simp [singlet, Fin.sum_univ_two]

theorem singlet_exchange : singlet * exchange = singlet := by
  ext ⟨s, t⟩ ⟨u, v⟩
  rw [Matrix.mul_apply, Fintype.sum_prod_type]
  fin_cases s <;> fin_cases t <;> fin_cases u <;> fin_cases v <;>
    simp [singlet, exchange, Fin.sum_univ_two]

theorem exchange_singlet : exchange * singlet = singlet := by
  ext ⟨s, t⟩ ⟨u, v⟩
  rw [Matrix.mul_apply, Fintype.sum_prod_type]
  fin_cases s <;> fin_cases t <;> fin_cases u <;> fin_cases v <;>
    simp [singlet, exchange, Fin.sum_univ_two]

theorem exchange_exchange : exchange * exchange = 1 := by
  ext ⟨s, t⟩ ⟨u, v⟩
  rw [Matrix.mul_apply, Fintype.sum_prod_type]
  fin_cases s <;> fin_cases t <;> fin_cases u <;> fin_cases v <;>
    simp [exchange, Fin.sum_univ_two, Matrix.one_apply]

/-- matrix form of `spinForm` -/
noncomputable def phi (C S : Matrix p p ℂ) : Matrix ((Fin 2 × Fin 2) × p) ((Fin 2 × Fin 2) × p) ℂ :=
  singlet ⊗ₖ ((1 / 2 : ℂ) • (C - S)) + exchange ⊗ₖ S

/-- products of two `phi` -/
noncomputable def psi (C S : Matrix p p ℂ) : Matrix ((Fin 2 × Fin 2) × p) ((Fin 2 × Fin 2) × p) ℂ :=
  singlet ⊗ₖ ((1 / 2 : ℂ) • (C - S)) + 1 ⊗ₖ S

theorem half_combine (C S C' S' : Matrix p p ℂ) :
    (2 : ℂ) • (((1 / 2 : ℂ) • (C - S)) * ((1 / 2 : ℂ) • (C' - S')))
      + ((1 / 2 : ℂ) • (C - S)) * S' + S * ((1 / 2 : ℂ) • (C' - S'))
      = (1 / 2 : ℂ) • (C * C' - S * S') := by
  simp only [Matrix.smul_mul, Matrix.mul_smul, smul_smul, Matrix.mul_sub, Matrix.sub_mul, smul_sub]
  module

theorem kron_add (M : Matrix (Fin 2 × Fin 2) (Fin 2 × Fin 2) ℂ) (A B : Matrix p p ℂ) :
    M ⊗ₖ A + M ⊗ₖ B = M ⊗ₖ (A + B) := (Matrix.kronecker_add M A B).symm

theorem kron_smul (a : ℂ) (M : Matrix (Fin 2 × Fin 2) (Fin 2 × Fin 2) ℂ) (A : Matrix p p ℂ) :
    (a • M) ⊗ₖ A = M ⊗ₖ (a • A) := by
  rw [Matrix.smul_kronecker, Matrix.kronecker_smul]

theorem phi_mul_phi (C S C' S' : Matrix p p ℂ) :
    phi C S * phi C' S' = psi (C * C') (S * S') := by
  simp only [phi, psi, Matrix.add_mul, Matrix.mul_add, ← Matrix.mul_kronecker_mul,
    singlet_singlet, singlet_exchange, exchange_singlet, exchange_exchange, kron_smul]
  rw [← half_combine, ← kron_add, ← kron_add]
  abel

theorem psi_mul_phi (C S C' S' : Matrix p p ℂ) :
    psi C S * phi C' S' = phi (C * C') (S * S') := by
  simp only [phi, psi, Matrix.add_mul, Matrix.mul_add, ← Matrix.mul_kronecker_mul,
    singlet_singlet, singlet_exchange, Matrix.one_mul, kron_smul]
  rw [← half_combine, ← kron_add, ← kron_add]
  abel

theorem psi_mul_psi (C S C' S' : Matrix p p ℂ) :
    psi C S * psi C' S' = psi (C * C') (S * S') := by
  simp only [psi, Matrix.add_mul, Matrix.mul_add, ← Matrix.mul_kronecker_mul,
    singlet_singlet, Matrix.one_mul, Matrix.mul_one, kron_smul]
  rw [← half_combine, ← kron_add, ← kron_add]
  abel

theorem psi_one : psi (1 : Matrix p p ℂ) 1 = 1 := by
  simp [psi]

theorem one_sub_psi (C S : Matrix p p ℂ) : 1 - psi C S = psi (1 - C) (1 - S) := by
  have : (1 : Matrix ((Fin 2 × Fin 2) × p) ((Fin 2 × Fin 2) × p) ℂ) = psi 1 1 := psi_one.symm
  rw [this]
  ext ⟨x, a⟩ ⟨y, b⟩
  simp only [psi, Matrix.sub_apply, Matrix.add_apply, Matrix.kronecker_apply, Matrix.smul_apply,
    smul_eq_mul]
  ring

theorem rpa_phi (c0 s0 uc us : Matrix p p ℂ) (hc : IsUnit (1 - c0 * uc).det)
    (hs : IsUnit (1 - s0 * us).det) :
    IsUnit (1 - phi c0 s0 * phi uc us).det ∧
    (1 - phi c0 s0 * phi uc us)⁻¹ * phi c0 s0
      = phi ((1 - c0 * uc)⁻¹ * c0) ((1 - s0 * us)⁻¹ * s0) := by
  have h1 : (1 - phi c0 s0 * phi uc us) * psi (1 - c0 * uc)⁻¹ (1 - s0 * us)⁻¹ = 1 := by
    rw [phi_mul_phi, one_sub_psi, psi_mul_psi, Matrix.mul_nonsing_inv _ hc,
      Matrix.mul_nonsing_inv _ hs, psi_one]
  refine ⟨Matrix.isUnit_det_of_right_inverse h1, ?_⟩
  rw [Matrix.inv_eq_right_inv h1, psi_mul_phi]

end algebra

/-- pairs of positions as (pair of spins, pair of orbitals) -/
def pairEquiv (fast : Bool) :
    Fin (2 * n) × Fin (2 * n) ≃ (Fin 2 × Fin 2) × (Fin n × Fin n) where
  toFun x := ((spinOf fast x.1, spinOf fast x.2), (orbOf fast x.1, orbOf fast x.2))
  invFun y := (slot fast y.1.1 y.2.1, slot fast y.1.2 y.2.2)
  left_inv x := by simp
  right_inv y := by simp

theorem pairMat_general (fast : Bool) (C S : T4 (Fin n) ℂ) :
    pairMat (generalFromChargeSpin fast C S)
      = (phi (pairMat C) (pairMat S)).submatrix (pairEquiv fast) (pairEquiv fast) := by
  ext ⟨i, j⟩ ⟨k, l⟩
  obtain ⟨s, a, rfl⟩ := slot_cases fast i
  obtain ⟨t, b, rfl⟩ := slot_cases fast j
  obtain ⟨u, c, rfl⟩ := slot_cases fast k
  obtain ⟨v, d, rfl⟩ := slot_cases fast l
  have h := congrFun (congrFun (congrFun (congrFun (block_general fast C S s t u v) a) b) c) d
  change block fast (generalFromChargeSpin fast C S) s t u v a b c d = _
  rw [h]
  simp only [spinForm, phi, pairEquiv, Equiv.coe_fn_mk, Matrix.submatrix_apply, spinOf_slot,
    orbOf_slot, Matrix.add_apply, Matrix.kronecker_apply, singlet, exchange, Matrix.of_apply,
    Matrix.smul_apply, Matrix.sub_apply, smul_eq_mul, pairMat, ite_mul, one_mul, zero_mul]

theorem rpaPoint_general (fast : Bool) (c0 s0 uc us : T4 (Fin n) ℂ)
    (hc : IsUnit (1 - pairMat c0 * pairMat uc).det)
    (hs : IsUnit (1 - pairMat s0 * pairMat us).det) :
    IsUnit (1 - pairMat (generalFromChargeSpin fast c0 s0)
      * pairMat (generalFromChargeSpin fast uc us)).det ∧
    rpaPoint (generalFromChargeSpin fast c0 s0) (generalFromChargeSpin fast uc us)
      = generalFromChargeSpin fast (rpaPoint c0 uc) (rpaPoint s0 us) := by
  obtain ⟨hu, he⟩ := rpa_phi (pairMat c0) (pairMat s0) (pairMat uc) (pairMat us) hc hs
  have h1 : 1 - pairMat (generalFromChargeSpin fast c0 s0)
      * pairMat (generalFromChargeSpin fast uc us)
      = (1 - phi (pairMat c0) (pairMat s0) * phi (pairMat uc) (pairMat us)).submatrix
          (pairEquiv fast) (pairEquiv fast) := by
    rw [pairMat_general, pairMat_general, Matrix.submatrix_mul_equiv]
    ext x y
    simp [Matrix.one_apply]
  refine ⟨?_, ?_⟩
  · rw [h1, Matrix.det_submatrix_equiv_self]
    exact hu
  · apply Verif.Rpa.pairMat_injective
    rw [rpaPoint, Verif.Rpa.pairMat_matTensor, h1, Matrix.inv_submatrix_equiv, pairMat_general,
      Matrix.submatrix_mul_equiv, he, pairMat_general]
    rfl

end Verif.RpaTensor
