import Verif.Rpa.Lemmas
import Verif.Bse.Lemmas
import Verif.Bubble.Props
import Verif.Lindhard.Props
import Mathlib.LinearAlgebra.Matrix.ConjTranspose
import Mathlib.LinearAlgebra.Matrix.SchurComplement
import Mathlib.Tactic.NoncommRing

/-!
# Reflections of matrices

Complex conjugation and exchange of the two particle-hole pairs act on the matrices of the Bethe-Salpeter and RPA
equations as maps which reverse products and keep inverses.
-/

noncomputable section

namespace Verif.Herm

set_option linter.unusedSectionVars false

open Complex Matrix

variable {m : Type*} [Fintype m] [DecidableEq m]

/-- additive maps which reverse products -/
structure Reflection (θ : Matrix m m ℂ → Matrix m m ℂ) : Prop where
  sub : ∀ A B, θ (A - B) = θ A - θ B
  add : ∀ A B, θ (A + B) = θ A + θ B
  one : θ 1 = 1
  mul : ∀ A B, θ (A * B) = θ B * θ A
  inv : ∀ A, θ A⁻¹ = (θ A)⁻¹

theorem push (A B : Matrix m m ℂ) : (1 - A * B)⁻¹ * A = A * (1 - B * A)⁻¹ := by
  have hdet : (1 - A * B).det = (1 - B * A).det := Matrix.det_one_sub_mul_comm A B
  by_cases h : IsUnit (1 - A * B).det
  · have h' : IsUnit (1 - B * A).det := hdet ▸ h
    have e : A * (1 - B * A) = (1 - A * B) * A := by noncomm_ring
    calc (1 - A * B)⁻¹ * A = (1 - A * B)⁻¹ * (A * (1 - B * A)) * (1 - B * A)⁻¹ := by
          rw [Matrix.mul_assoc, Matrix.mul_assoc, Matrix.mul_nonsing_inv _ h', Matrix.mul_one]
      _ = A * (1 - B * A)⁻¹ := by
          rw [e, ← Matrix.mul_assoc, Matrix.nonsing_inv_mul _ h, Matrix.one_mul]
  · have h' : ¬ IsUnit (1 - B * A).det := hdet ▸ h
    rw [Matrix.nonsing_inv_apply_not_isUnit _ h, Matrix.nonsing_inv_apply_not_isUnit _ h', Matrix.zero_mul,
      Matrix.mul_zero]

theorem Reflection.ladder {θ : Matrix m m ℂ → Matrix m m ℂ} (h : Reflection θ) (A B : Matrix m m ℂ) :
    θ ((1 - A * B)⁻¹ * A) = (1 - θ A * θ B)⁻¹ * θ A := by
  rw [h.mul, h.inv, h.sub, h.one, h.mul, push]

theorem Reflection.screened {θ : Matrix m m ℂ → Matrix m m ℂ} (h : Reflection θ) (A B : Matrix m m ℂ) :
    θ (B * (1 - A * B)⁻¹) = θ B * (1 - θ A * θ B)⁻¹ := by
  rw [h.mul, h.inv, h.sub, h.one, h.mul, ← push]

/-- hermitian conjugation after renaming the basis -/
theorem reflection_conjTranspose (e : m ≃ m) : Reflection fun A : Matrix m m ℂ => Aᴴ.submatrix e e where
  sub A B := by rw [Matrix.conjTranspose_sub]; rfl
  add A B := by rw [Matrix.conjTranspose_add]; rfl
  one := by rw [Matrix.conjTranspose_one, Matrix.submatrix_one_equiv]
  mul A B := by rw [Matrix.conjTranspose_mul, ← Matrix.submatrix_mul_equiv _ _ _ e _]
  inv A := by rw [Matrix.conjTranspose_nonsing_inv, Matrix.inv_submatrix_equiv]

theorem reflection_transpose : Reflection fun A : Matrix m m ℂ => Aᵀ where
  sub A B := Matrix.transpose_sub A B
  add A B := Matrix.transpose_add A B
  one := Matrix.transpose_one
  mul A B := Matrix.transpose_mul A B
  inv A := Matrix.transpose_nonsing_inv A

variable {o : Type*} [Fintype o] [DecidableEq o]

/-- hermitian conjugate of a rank four tensor: `c†_a c_b c†_c c_d ↦ c†_d c_c c†_b c_a` -/
def dag (t : Rpa.T4 o ℂ) : Rpa.T4 o ℂ := fun a b c d => (starRingEnd ℂ) (t d c b a)

/-- exchange of the two pairs -/
def exch (t : Rpa.T4 o ℂ) : Rpa.T4 o ℂ := fun a b c d => t c d a b

theorem pairMat_dag (t : Rpa.T4 o ℂ) :
    Rpa.pairMat (dag t) = (Rpa.pairMat t)ᴴ.submatrix (Equiv.prodComm o o) (Equiv.prodComm o o) := rfl

theorem pairMat_exch (t : Rpa.T4 o ℂ) : Rpa.pairMat (exch t) = (Rpa.pairMat t)ᵀ := rfl

theorem pairMat_inj {s t : Rpa.T4 o ℂ} (h : Rpa.pairMat s = Rpa.pairMat t) : s = t := by
  funext a b c d
  exact congrFun (congrFun h (a, b)) (c, d)

theorem rpaPoint_dag (chi0 U : Rpa.T4 o ℂ) : Rpa.rpaPoint (dag chi0) (dag U) = dag (Rpa.rpaPoint chi0 U) := by
  apply pairMat_inj
  rw [pairMat_dag, Rpa.rpaPoint, Rpa.rpaPoint, Rpa.pairMat_matTensor, Rpa.pairMat_matTensor, pairMat_dag, pairMat_dag]
  exact ((reflection_conjTranspose (Equiv.prodComm o o)).ladder _ _).symm

theorem rpaPoint_exch (chi0 U : Rpa.T4 o ℂ) : Rpa.rpaPoint (exch chi0) (exch U) = exch (Rpa.rpaPoint chi0 U) := by
  apply pairMat_inj
  rw [pairMat_exch, Rpa.rpaPoint, Rpa.rpaPoint, Rpa.pairMat_matTensor, Rpa.pairMat_matTensor, pairMat_exch, pairMat_exch]
  exact (reflection_transpose.ladder _ _).symm

theorem screened_dag (chi V : Rpa.T4 o ℂ) :
    Rpa.screenedBubblePoint (dag chi) (dag V) = dag (Rpa.screenedBubblePoint chi V) ∧
    Rpa.screenedGeneralizedPoint (dag chi) (dag V) = dag (Rpa.screenedGeneralizedPoint chi V) := by
  have hR := reflection_conjTranspose (Equiv.prodComm o o)
  constructor
  · apply pairMat_inj
    rw [pairMat_dag, Rpa.screenedBubblePoint, Rpa.screenedBubblePoint, Rpa.pairMat_matTensor, Rpa.pairMat_matTensor,
      pairMat_dag, pairMat_dag]
    exact (hR.screened _ _).symm
  · apply pairMat_inj
    rw [pairMat_dag, Rpa.screenedGeneralizedPoint, Rpa.screenedGeneralizedPoint, Rpa.pairMat_matTensor,
      Rpa.pairMat_matTensor, pairMat_dag, pairMat_dag]
    have h := hR.add (Rpa.pairMat V * Rpa.pairMat chi * Rpa.pairMat V) (Rpa.pairMat V)
    rw [hR.mul, hR.mul, ← Matrix.mul_assoc] at h
    exact h.symm

theorem screened_exch (chi V : Rpa.T4 o ℂ) :
    Rpa.screenedBubblePoint (exch chi) (exch V) = exch (Rpa.screenedBubblePoint chi V) ∧
    Rpa.screenedGeneralizedPoint (exch chi) (exch V) = exch (Rpa.screenedGeneralizedPoint chi V) := by
  have hR := reflection_transpose (m := o × o)
  constructor
  · apply pairMat_inj
    rw [pairMat_exch, Rpa.screenedBubblePoint, Rpa.screenedBubblePoint, Rpa.pairMat_matTensor, Rpa.pairMat_matTensor,
      pairMat_exch, pairMat_exch]
    exact (hR.screened _ _).symm
  · apply pairMat_inj
    rw [pairMat_exch, Rpa.screenedGeneralizedPoint, Rpa.screenedGeneralizedPoint, Rpa.pairMat_matTensor,
      Rpa.pairMat_matTensor, pairMat_exch, pairMat_exch]
    have h := hR.add (Rpa.pairMat V * Rpa.pairMat chi * Rpa.pairMat V) (Rpa.pairMat V)
    rw [hR.mul, hR.mul, ← Matrix.mul_assoc] at h
    exact h.symm

/-! ## Two frequencies -/

variable {ν : Type*} [Fintype ν] [DecidableEq ν]

/-- hermitian conjugate of a two-frequency tensor: `cn` is the map of a frequency to its conjugate -/
def dag6 (cn : ν ≃ ν) (t : Bse.T6 ν o ℂ) : Bse.T6 ν o ℂ := fun n n' a b c d =>
  (starRingEnd ℂ) (t (cn n') (cn n) d c b a)

/-- renaming of the rows -/
def rowEquiv (cn : ν ≃ ν) : ν × o × o ≃ ν × o × o := cn.prodCongr (Equiv.refl _)

theorem chMat_dag6 (cn : ν ≃ ν) (t : Bse.T6 ν o ℂ) :
    Bse.chMat .PH (dag6 cn t) = (Bse.chMat .PH t)ᴴ.submatrix (rowEquiv cn) (rowEquiv cn) := rfl

theorem bsePoint_dag6 (cn : ν ≃ ν) (chi0 gamma : Bse.T6 ν o ℂ) :
    Bse.bsePoint (dag6 cn chi0) (dag6 cn gamma) = dag6 cn (Bse.bsePoint chi0 gamma) := by
  apply Bse.chMat_injective .PH
  rw [chMat_dag6, Bse.chMat_bsePoint, Bse.chMat_bsePoint, chMat_dag6, chMat_dag6]
  exact ((reflection_conjTranspose (rowEquiv cn)).ladder _ _).symm

theorem inverse_dag6 (cn : ν ≃ ν) (t : Bse.T6 ν o ℂ) :
    Bse.inverse .PH (dag6 cn t) = dag6 cn (Bse.inverse .PH t) := by
  apply Bse.chMat_injective .PH
  rw [chMat_dag6, Bse.chMat_inverse, Bse.chMat_inverse, chMat_dag6]
  exact ((reflection_conjTranspose (rowEquiv cn)).inv _).symm

theorem product_dag6 (cn : ν ≃ ν) (s t : Bse.T6 ν o ℂ) :
    Bse.product .PH (dag6 cn s) (dag6 cn t) = dag6 cn (Bse.product .PH t s) := by
  apply Bse.chMat_injective .PH
  rw [chMat_dag6, Bse.chMat_product, Bse.chMat_product, chMat_dag6, chMat_dag6]
  exact ((reflection_conjTranspose (rowEquiv cn)).mul _ _).symm

theorem diagEmbed_dag6 (cn : ν ≃ ν) (chi0 : ν → Bse.T4 o ℂ) :
    Bse.diagEmbed (fun n => dag (chi0 (cn n))) = dag6 cn (Bse.diagEmbed chi0) := by
  funext n n' a b c d
  simp only [Bse.diagEmbed, dag6]
  by_cases h : n = n'
  · subst h
    simp [dag]
  · have h' : ¬ cn n' = cn n := fun e => h (cn.injective e).symm
    simp [h, h']

theorem traceNu_dag6 (cn : ν ≃ ν) (beta : ℝ) (chi : Bse.T6 ν o ℂ) :
    Bse.traceNu (beta : ℂ) (dag6 cn chi) = dag (Bse.traceNu (beta : ℂ) chi) := by
  funext a b c d
  simp only [Bse.traceNu, dag6, dag, map_div₀, map_sum, map_mul, conj_ofReal]
  rw [Finset.sum_comm]
  congr 1
  rw [← Equiv.sum_comp cn (fun n => ∑ n', (starRingEnd ℂ) (chi n n' d c b a))]
  refine Finset.sum_congr rfl fun n _ => ?_
  rw [← Equiv.sum_comp cn (fun n' => (starRingEnd ℂ) (chi (cn n) n' d c b a))]

theorem scalarProduct_apply (L R : ν → Bse.T4 o ℂ) (M : Bse.T6 ν o ℂ) (a b c d : o) :
    Bse.scalarProductPH L M R a b c d = ∑ y : ν × o × o, ∑ x : ν × o × o,
      L x.1 x.2.1 x.2.2 b a * M x.1 y.1 x.2.1 x.2.2 y.2.1 y.2.2 * R y.1 y.2.2 y.2.1 c d := by
  have e0 : Bse.scalarProductPH L M R a b c d = ∑ y : ν × o × o, (∑ x : ν × o × o, L x.1 x.2.1 x.2.2 b a
      * M x.1 y.1 x.2.1 x.2.2 y.2.1 y.2.2) * R y.1 y.2.2 y.2.1 c d := rfl
  rw [e0]
  exact Finset.sum_congr rfl fun y _ => Finset.sum_mul _ _ _

theorem scalarProduct_dag6 (cn : ν ≃ ν) (L R : ν → Bse.T4 o ℂ) (M : Bse.T6 ν o ℂ) :
    Bse.scalarProductPH (fun n a b c d => (starRingEnd ℂ) (R (cn n) a b c d)) (dag6 cn M)
        (fun n a b c d => (starRingEnd ℂ) (L (cn n) a b c d)) = dag (Bse.scalarProductPH L M R) := by
  funext a b c d
  rw [dag, scalarProduct_apply, scalarProduct_apply]
  simp only [map_sum, map_mul, dag6]
  rw [Finset.sum_comm]
  let E : ν × o × o ≃ ν × o × o := cn.prodCongr (Equiv.prodComm o o)
  rw [← Equiv.sum_comp E (fun x => ∑ y : ν × o × o, (starRingEnd ℂ) (L y.1 y.2.1 y.2.2 c d) *
    (starRingEnd ℂ) (M y.1 x.1 y.2.1 y.2.2 x.2.1 x.2.2) * (starRingEnd ℂ) (R x.1 x.2.2 x.2.1 b a))]
  refine Finset.sum_congr rfl fun x _ => ?_
  rw [← Equiv.sum_comp E (fun y : ν × o × o => (starRingEnd ℂ) (L y.1 y.2.1 y.2.2 c d) *
    (starRingEnd ℂ) (M y.1 (E x).1 y.2.1 y.2.2 (E x).2.1 (E x).2.2) * (starRingEnd ℂ) (R (E x).1 (E x).2.2 (E x).2.1 b a))]
  refine Finset.sum_congr rfl fun y _ => ?_
  simp only [E, Equiv.prodCongr_apply, Prod.map_fst, Prod.map_snd, Equiv.prodComm_apply, Prod.fst_swap, Prod.snd_swap]
  ring

end Verif.Herm
