import Verif.HfResponse.Modes
import Verif.HfResponse.DFermi
import Verif.HfResponse.Examples
import Mathlib.Analysis.Matrix.PosDef
import Mathlib.LinearAlgebra.Matrix.Charpoly.Eigs
import Mathlib.Analysis.Complex.Polynomial.Basic

/-!
# The modes of the Hartree-Fock response

C103.
-/

noncomputable section

namespace Verif.HfResponse

open Matrix Filter Topology
open scoped Matrix.Norms.Operator ComplexOrder

variable {n : ℕ} {κ : Type*} [Fintype κ]

set_option linter.unusedSectionVars false

/-! ## Products of a positive definite and a hermitian matrix -/

section Algebra
variable {I : Type*} [Fintype I] [DecidableEq I]

theorem mem_roots_iff (C : Matrix I I ℂ) (z : ℂ) : z ∈ C.charpoly.roots ↔ ∃ v ≠ 0, C.mulVec v = z • v := by
  rw [Polynomial.mem_roots C.charpoly_monic.ne_zero, Polynomial.IsRoot, Matrix.eval_charpoly,
    ← Matrix.exists_mulVec_eq_zero_iff]
  refine exists_congr fun v => and_congr Iff.rfl ?_
  rw [Matrix.sub_mulVec, sub_eq_zero, Matrix.scalar_apply, Matrix.diagonal_const_mulVec]
  exact eq_comm

theorem det_one_sub (C : Matrix I I ℂ) : (1 - C).det = (C.charpoly.roots.map fun x => 1 - x).prod := by
  have h : (1 - C).det = C.charpoly.eval 1 := by
    rw [Matrix.eval_charpoly, map_one]
  rw [h, (IsAlgClosed.splits C.charpoly).eval_eq_prod_roots_of_monic C.charpoly_monic]

theorem one_sub_posDef {N : Matrix I I ℂ} (hN : N.IsHermitian) :
    (1 - N).PosDef ↔ ∀ i, hN.eigenvalues i < 1 := by
  conv_lhs => rw [hN.spectral_theorem]
  rw [← map_one (Unitary.conjStarAlgAut ℂ _ hN.eigenvectorUnitary), ← map_sub, Unitary.conjStarAlgAut_apply,
    Matrix.IsUnit.posDef_star_right_conjugate_iff (Unitary.isUnit_coe), ← diagonal_one, Matrix.diagonal_sub,
    Matrix.posDef_diagonal_iff]
  refine forall_congr' fun i => ?_
  rw [sub_pos]
  exact Complex.real_lt_real (x := hN.eigenvalues i) (y := 1)

theorem exists_sqrt {M : Matrix I I ℂ} (hM : M.PosDef) : ∃ B : Matrix I I ℂ, M = Bᴴ * B ∧ IsUnit B := by
  obtain ⟨eig, he⟩ := Lindhard.exists_eigSpec (o := I)
  obtain ⟨h1, h2, h3⟩ := he M hM.isHermitian
  set V := (eig M).2
  set d := (eig M).1
  have hV : IsUnit V := ⟨⟨V, Vᴴ, h2, h1⟩, rfl⟩
  have hd : ∀ i, 0 < d i := by
    have hM' := hM
    rw [h3] at hM'
    have := Matrix.posDef_diagonal_iff.1 ((Matrix.IsUnit.posDef_star_right_conjugate_iff hV).1 hM')
    exact fun i => Complex.zero_lt_real.1 (this i)
  refine ⟨diagonal (fun i => ((Real.sqrt (d i) : ℝ) : ℂ)) * Vᴴ, ?_, ?_⟩
  · rw [Matrix.conjTranspose_mul, Matrix.conjTranspose_conjTranspose, Matrix.diagonal_conjTranspose, h3]
    rw [← Matrix.mul_assoc, Matrix.mul_assoc V (diagonal _) (diagonal _), Matrix.diagonal_mul_diagonal]
    congr 3
    funext i
    simp only [Pi.star_apply, Complex.star_def, Complex.conj_ofReal]
    rw [← Complex.ofReal_mul, Real.mul_self_sqrt (hd i).le]
  · refine IsUnit.mul ?_ ⟨⟨Vᴴ, V, h1, h2⟩, rfl⟩
    rw [Matrix.isUnit_iff_isUnit_det, Matrix.det_diagonal, isUnit_iff_ne_zero, Finset.prod_ne_zero_iff]
    intro i _
    exact_mod_cast (Real.sqrt_pos.2 (hd i)).ne'

/-- roots of the product of a positive definite and a hermitian matrix: they are real, and all of them are
smaller than one exactly if the form `x ↦ ⟨x, M x⟩ - ⟨M x, K M x⟩` is positive. -/
theorem posDef_mul_hermitian {M K : Matrix I I ℂ} (hM : M.PosDef) (hK : K.IsHermitian) :
    (∀ z ∈ (M * K).charpoly.roots, z.im = 0) ∧
    ((∀ z ∈ (M * K).charpoly.roots, z.re < 1) ↔ (M - M * K * M).PosDef) := by
  obtain ⟨B, hB, hu⟩ := exists_sqrt hM
  have hN : (B * K * Bᴴ).IsHermitian := Matrix.isHermitian_mul_mul_conjTranspose B hK
  have hc : (M * K).charpoly = (B * K * Bᴴ).charpoly := by
    rw [hB, Matrix.mul_assoc, Matrix.charpoly_mul_comm]
  have hr : (M * K).charpoly.roots = Multiset.map (fun i => ((hN.eigenvalues i : ℝ) : ℂ)) Finset.univ.val := by
    rw [hc, hN.roots_charpoly_eq_eigenvalues]
    rfl
  refine ⟨fun z hz => ?_, ?_⟩
  · rw [hr, Multiset.mem_map] at hz
    obtain ⟨i, -, rfl⟩ := hz
    exact Complex.ofReal_im _
  · have e : M - M * K * M = Bᴴ * (1 - B * K * Bᴴ) * B := by
      rw [hB]; noncomm_ring
    have e2 : (M - M * K * M).PosDef ↔ (1 - B * K * Bᴴ).PosDef := by
      rw [e]
      exact Matrix.IsUnit.posDef_star_left_conjugate_iff hu
    rw [e2, one_sub_posDef hN, hr]
    simp only [Multiset.mem_map, Finset.mem_val, Finset.mem_univ, true_and, forall_exists_index,
      forall_apply_eq_imp_iff, Complex.ofReal_re]

end Algebra

/-! ## The bare response as a positive definite form -/

/-- matrix of the map that sends a field to minus the change of the density matrix -/
def fieldMat (b : Base n κ) : Matrix (Fin n × Fin n) (Fin n × Fin n) ℂ := fun A B =>
  (∑ k, -(dFermi b.beta (b.ek k) (unit B.1 B.2) A.1 A.2)) / (Fintype.card κ : ℂ)

/-- a vector of pairs as a matrix -/
def asMat (x : Fin n × Fin n → ℂ) : Matrix (Fin n) (Fin n) ℂ := fun i j => x (i, j)

theorem fieldMat_mulVec (b : Base n κ) (x : Fin n × Fin n → ℂ) (A : Fin n × Fin n) :
    (fieldMat b).mulVec x A = (∑ k, -(dFermi b.beta (b.ek k) (asMat x) A.1 A.2)) / (Fintype.card κ : ℂ) := by
  simp only [Matrix.mulVec, dotProduct, fieldMat]
  simp only [dFermi_sum b.beta _ (asMat x), Finset.sum_div, Finset.sum_mul]
  rw [Finset.sum_comm]
  refine Finset.sum_congr rfl fun k _ => ?_
  rw [Fintype.sum_prod_type]
  simp only [asMat, ← Finset.sum_neg_distrib, Finset.sum_div]
  refine Finset.sum_congr rfl fun i _ => Finset.sum_congr rfl fun j _ => ?_
  ring

theorem trace_form (X Y : Matrix (Fin n) (Fin n) ℂ) :
    Matrix.trace (Xᴴ * Y) = ∑ i, ∑ j, (starRingEnd ℂ) (X i j) * Y i j := by
  simp only [Matrix.trace, Matrix.diag_apply, Matrix.mul_apply, Matrix.conjTranspose_apply]
  rw [Finset.sum_comm]
  rfl

/-- the derivative as a form, in the eigenbasis -/
theorem dFermi_form (beta : ℝ) {h : Matrix (Fin n) (Fin n) ℂ} {p : (Fin n → ℝ) × Matrix (Fin n) (Fin n) ℂ}
    (hp : Lindhard.Diag h p) (X Y : Matrix (Fin n) (Fin n) ℂ) :
    Matrix.trace (Xᴴ * dFermi beta h Y) = ∑ i, ∑ j, (divDiff beta (p.1 i) (p.1 j) : ℂ)
      * ((starRingEnd ℂ) ((p.2ᴴ * X * p.2) i j) * (p.2ᴴ * Y * p.2) i j) := by
  rw [dFermi_eig beta hp]
  set D : Matrix (Fin n) (Fin n) ℂ := Matrix.of fun i j =>
    (divDiff beta (p.1 i) (p.1 j) : ℂ) * (p.2ᴴ * Y * p.2) i j
  have e : Matrix.trace (Xᴴ * (p.2 * D * p.2ᴴ)) = Matrix.trace ((p.2ᴴ * X * p.2)ᴴ * D) := by
    rw [Matrix.trace_mul_comm, Matrix.mul_assoc, Matrix.mul_assoc, Matrix.trace_mul_comm,
      Matrix.conjTranspose_mul, Matrix.conjTranspose_mul, Matrix.conjTranspose_conjTranspose,
      Matrix.trace_mul_comm (p.2ᴴ * (Xᴴ * p.2)) D]
    congr 1
    noncomm_ring
  rw [e, trace_form]
  refine Finset.sum_congr rfl fun i _ => Finset.sum_congr rfl fun j _ => ?_
  simp only [D, Matrix.of_apply]
  ring

theorem dotProduct_form (b : Base n κ) (x y : Fin n × Fin n → ℂ) :
    star x ⬝ᵥ (fieldMat b).mulVec y
      = (∑ k, -(Matrix.trace ((asMat x)ᴴ * dFermi b.beta (b.ek k) (asMat y)))) / (Fintype.card κ : ℂ) := by
  simp only [dotProduct, fieldMat_mulVec, trace_form, Pi.star_apply, Complex.star_def]
  simp only [Finset.sum_div, Finset.mul_sum]
  rw [Finset.sum_comm]
  refine Finset.sum_congr rfl fun k _ => ?_
  rw [Fintype.sum_prod_type]
  simp only [asMat, ← Finset.sum_neg_distrib, Finset.sum_div]
  refine Finset.sum_congr rfl fun i _ => Finset.sum_congr rfl fun j _ => ?_
  ring

theorem dFermi_trace_herm (beta : ℝ) {h : Matrix (Fin n) (Fin n) ℂ} (hh : h.IsHermitian)
    (X Y : Matrix (Fin n) (Fin n) ℂ) :
    (starRingEnd ℂ) (Matrix.trace (Xᴴ * dFermi beta h Y)) = Matrix.trace (Yᴴ * dFermi beta h X) := by
  obtain ⟨eig, he⟩ := Lindhard.exists_eigSpec (o := Fin n)
  have hp : Lindhard.Diag h (eig h) := he h hh
  rw [dFermi_form beta hp, dFermi_form beta hp]
  simp only [map_sum, map_mul, Complex.conj_ofReal, Complex.conj_conj]
  refine Finset.sum_congr rfl fun i _ => Finset.sum_congr rfl fun j _ => ?_
  ring

theorem dFermi_trace_neg {beta : ℝ} (hb : 0 < beta) {h : Matrix (Fin n) (Fin n) ℂ} (hh : h.IsHermitian)
    {X : Matrix (Fin n) (Fin n) ℂ} (hX : X ≠ 0) : 0 < -(Matrix.trace (Xᴴ * dFermi beta h X)) := by
  obtain ⟨eig, he⟩ := Lindhard.exists_eigSpec (o := Fin n)
  have hp : Lindhard.Diag h (eig h) := he h hh
  rw [dFermi_form beta hp]
  set p := eig h
  have hX' : p.2ᴴ * X * p.2 ≠ 0 := by
    intro hc
    apply hX
    calc X = (p.2 * p.2ᴴ) * X * (p.2 * p.2ᴴ) := by rw [hp.2.1, one_mul, mul_one]
      _ = p.2 * (p.2ᴴ * X * p.2) * p.2ᴴ := by noncomm_ring
      _ = 0 := by rw [hc]; simp
  have e : -(∑ i, ∑ j, (divDiff beta (p.1 i) (p.1 j) : ℂ)
      * ((starRingEnd ℂ) ((p.2ᴴ * X * p.2) i j) * (p.2ᴴ * X * p.2) i j))
      = ((∑ i, ∑ j, (-divDiff beta (p.1 i) (p.1 j)) * Complex.normSq ((p.2ᴴ * X * p.2) i j) : ℝ) : ℂ) := by
    push_cast
    simp only [← Finset.sum_neg_distrib]
    refine Finset.sum_congr rfl fun i _ => Finset.sum_congr rfl fun j _ => ?_
    rw [Complex.normSq_eq_conj_mul_self]
    ring
  rw [e, Complex.zero_lt_real]
  have hnn : ∀ i j, 0 ≤ (-divDiff beta (p.1 i) (p.1 j)) * Complex.normSq ((p.2ᴴ * X * p.2) i j) := fun i j =>
    mul_nonneg (neg_nonneg.2 (divDiff_neg hb _ _).le) (Complex.normSq_nonneg _)
  obtain ⟨i, j, hij⟩ : ∃ i j, (p.2ᴴ * X * p.2) i j ≠ 0 := by
    by_contra hc
    push Not at hc
    exact hX' (by ext i j; exact hc i j)
  refine Finset.sum_pos' (fun i _ => Finset.sum_nonneg fun j _ => hnn i j) ⟨i, Finset.mem_univ _, ?_⟩
  refine Finset.sum_pos' (fun j _ => hnn i j) ⟨j, Finset.mem_univ _, ?_⟩
  exact mul_pos (neg_pos.2 (divDiff_neg hb _ _)) (Complex.normSq_pos.2 hij)

/-- minus the response of the density matrix to a field is a positive definite form -/
theorem fieldMat_posDef [Nonempty κ] (b : Base n κ) (hb : 0 < b.beta) (hk : ∀ k, (b.ek k).IsHermitian) :
    (fieldMat b).PosDef := by
  have hN : (0 : ℂ) < (Fintype.card κ : ℂ) := by exact_mod_cast Fintype.card_pos
  refine Matrix.PosDef.of_dotProduct_mulVec_pos ?_ ?_
  · ext A B
    have h : ∀ A B : Fin n × Fin n, fieldMat b A B = star (Pi.single A (1 : ℂ)) ⬝ᵥ (fieldMat b).mulVec (Pi.single B 1) := by
      intro A B
      simp
    rw [Matrix.conjTranspose_apply, h A B, h B A, dotProduct_form, dotProduct_form, star_div₀, Complex.star_def]
    simp only [map_sum, map_neg, dFermi_trace_herm b.beta (hk _), map_natCast]
  · intro x hx
    rw [dotProduct_form]
    refine div_pos (Finset.sum_pos (fun k _ => ?_) Finset.univ_nonempty) hN
    refine dFermi_trace_neg hb (hk k) fun hc => hx ?_
    funext A
    exact congrFun (congrFun hc A.1) A.2

end Verif.HfResponse
