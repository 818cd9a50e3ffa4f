import Verif.Causal.Props
import Verif.Lindhard.Lemmas
import Mathlib.MeasureTheory.Measure.Haar.NormedSpace

/-!
# C105: spectral sum rule of the free lattice Green's function on the real axis
-/

set_option linter.unusedSectionVars false

noncomputable section

namespace Verif.Causal

open Matrix Verif.Dyson Verif.Parallel Verif.Lindhard MeasureTheory
open scoped ComplexOrder

variable {n : Type*} [Fintype n] [DecidableEq n] {K : Type*} [DecidableEq K]

theorem lorentz_eq {δ : ℝ} (hδ : 0 < δ) (c x : ℝ) :
    2 * δ / ((x + c) ^ 2 + δ ^ 2) = 2 / δ * (1 + ((x + c) / δ) ^ 2)⁻¹ := by
  have : (x + c) ^ 2 + δ ^ 2 ≠ 0 := by positivity
  field_simp
  ring

theorem lorentz_integrable {δ : ℝ} (hδ : 0 < δ) (c : ℝ) :
    Integrable fun x : ℝ => 2 * δ / ((x + c) ^ 2 + δ ^ 2) := by
  simp only [lorentz_eq hδ]
  refine Integrable.const_mul ?_ _
  exact (integrable_inv_one_add_sq.comp_div hδ.ne').comp_add_right c

theorem lorentz_integral {δ : ℝ} (hδ : 0 < δ) (c : ℝ) :
    ∫ x : ℝ, 2 * δ / ((x + c) ^ 2 + δ ^ 2) = 2 * Real.pi := by
  simp only [lorentz_eq hδ]
  rw [integral_const_mul]
  have h1 : ∫ x : ℝ, (1 + ((x + c) / δ) ^ 2)⁻¹ = ∫ x : ℝ, (1 + (x / δ) ^ 2)⁻¹ :=
    integral_add_right_eq_self (fun x : ℝ => (1 + (x / δ) ^ 2)⁻¹) c
  rw [h1, Measure.integral_comp_div (fun x : ℝ => (1 + x ^ 2)⁻¹) δ, integral_univ_inv_one_add_sq, abs_of_pos hδ, smul_eq_mul]
  field_simp

/-- the spectral function of one level -/
theorem level (δ mu ε x : ℝ) :
    Complex.I * (((x : ℂ) + Complex.I * δ + mu - ε)⁻¹ - star ((x : ℂ) + Complex.I * δ + mu - ε)⁻¹)
      = ((2 * δ / ((x + (mu - ε)) ^ 2 + δ ^ 2) : ℝ) : ℂ) := by
  have hn : Complex.normSq ((x : ℂ) + Complex.I * δ + mu - ε) = (x + (mu - ε)) ^ 2 + δ ^ 2 := by
    rw [Complex.normSq_apply]
    simp
    ring
  refine Complex.ext ?_ ?_
  · simp only [Complex.mul_re, Complex.I_re, Complex.I_im, Complex.sub_im, Complex.sub_re, Complex.star_def, Complex.conj_im,
      Complex.conj_re, Complex.inv_im, hn, Complex.ofReal_re]
    simp
    ring
  · rw [Complex.ofReal_im, Complex.I_mul_im, Complex.sub_re, Complex.star_def, Complex.conj_re, sub_self]

theorem inv_spectral (e U : Matrix n n ℂ) (ε : n → ℝ) (h1 : Uᴴ * U = 1) (h2 : U * Uᴴ = 1)
    (he : e = U * diagonal (fun i => (ε i : ℂ)) * Uᴴ) (z : ℂ) (hz : ∀ i, z - ε i ≠ 0) :
    (z • (1 : Matrix n n ℂ) - e)⁻¹ = U * diagonal (fun i => (z - ε i)⁻¹) * Uᴴ := by
  refine Matrix.inv_eq_right_inv ?_
  have h3 : z • (1 : Matrix n n ℂ) - e = U * diagonal (fun i => z - ε i) * Uᴴ := by
    have : diagonal (fun i => z - (ε i : ℂ)) = z • (1 : Matrix n n ℂ) - diagonal (fun i => (ε i : ℂ)) := by
      ext i j
      by_cases h : i = j <;> simp [h]
    rw [this, Matrix.mul_sub, Matrix.sub_mul, ← he, Matrix.mul_smul, Matrix.mul_one, Matrix.smul_mul, h2]
  have h4 : U * diagonal (fun i => z - ε i) * Uᴴ * (U * diagonal (fun i => (z - ε i)⁻¹) * Uᴴ)
      = U * (diagonal (fun i => z - ε i) * (Uᴴ * U) * diagonal (fun i => (z - ε i)⁻¹)) * Uᴴ := by
    simp only [Matrix.mul_assoc]
  rw [h3, h4, h1, Matrix.mul_one, diagonal_mul_diagonal]
  have h5 : diagonal (fun i => (z - ε i) * (z - ε i)⁻¹) = (1 : Matrix n n ℂ) := by
    rw [← diagonal_one]
    congr 1
    funext i
    exact mul_inv_cancel₀ (hz i)
  rw [h5, Matrix.mul_one, h2]

/-- C105: the spectral function of the free lattice Green's function with broadening `δ` integrates over the real axis to the unit
matrix, whatever the dispersion, the chemical potential and the broadening. -/
theorem C105_sum_rule (ranks : ℕ) (hr : 0 < ranks) (mu δ : ℝ) (hδ : 0 < δ) (kmesh : List K) (hk : kmesh.Nodup)
    (e : K → Matrix n n ℂ) (he : ∀ k, (e k).IsHermitian) (k : K) (hkm : k ∈ kmesh) (a b : n) :
    let A : ℝ → ℂ := fun ω => ((1 / (2 * Real.pi) : ℝ) : ℂ) * (Complex.I *
      (latticeDysonG0fk ranks (mu : ℂ) (fun x : ℝ => (x : ℂ)) [ω] kmesh e (Complex.I * δ) (ω, k) a b
        - star (latticeDysonG0fk ranks (mu : ℂ) (fun x : ℝ => (x : ℂ)) [ω] kmesh e (Complex.I * δ) (ω, k) b a)))
    Integrable A ∧ ∫ ω, A ω = if a = b then 1 else 0 := by
  intro A
  obtain ⟨eig, heig⟩ := exists_eigSpec (o := n)
  obtain ⟨h1, h2, h3⟩ := heig (e k) (he k)
  set U := (eig (e k)).2
  set ε := (eig (e k)).1
  have hz : ∀ (ω : ℝ) i, ((ω : ℂ) + Complex.I * δ + mu) - ε i ≠ 0 := by
    intro ω i h
    have := congrArg Complex.im h
    simp at this
    exact hδ.ne' this
  have hG : ∀ ω : ℝ, ∀ a b, latticeDysonG0fk ranks (mu : ℂ) (fun x : ℝ => (x : ℂ)) [ω] kmesh e (Complex.I * δ) (ω, k) a b
      = ∑ i, U a i * ((ω : ℂ) + Complex.I * δ + mu - ε i)⁻¹ * star (U b i) := by
    intro ω a b
    rw [latticeDysonG0fk, C02_distributedAssign ranks hr _ (prodMesh_nodup (List.nodup_singleton _) hk),
      if_pos (mem_prodMesh.2 ⟨by simp, hkm⟩)]
    simp only []
    rw [inv_spectral (e k) U ε h1 h2 h3 _ (hz ω), Matrix.mul_apply]
    simp only [Matrix.mul_diagonal, conjTranspose_apply]
  have hA : A = fun ω => ∑ i, (((1 / (2 * Real.pi) : ℝ) : ℂ) * (U a i * star (U b i)))
      * ((2 * δ / ((ω + (mu - ε i)) ^ 2 + δ ^ 2) : ℝ) : ℂ) := by
    funext ω
    simp only [A]
    rw [hG, hG, star_sum, ← Finset.sum_sub_distrib, Finset.mul_sum, Finset.mul_sum]
    refine Finset.sum_congr rfl fun i _ => ?_
    rw [← level δ mu (ε i) ω, star_mul', star_mul', star_star]
    ring
  have hint : ∀ i, Integrable fun ω : ℝ => (((1 / (2 * Real.pi) : ℝ) : ℂ) * (U a i * star (U b i)))
      * ((2 * δ / ((ω + (mu - ε i)) ^ 2 + δ ^ 2) : ℝ) : ℂ) :=
    fun i => (lorentz_integrable hδ (mu - ε i)).ofReal.const_mul _
  refine ⟨?_, ?_⟩
  · rw [hA]
    exact integrable_finsetSum _ fun i _ => hint i
  · rw [hA, integral_finsetSum _ fun i _ => hint i]
    have h5 : ∀ i, (∫ ω : ℝ, (((1 / (2 * Real.pi) : ℝ) : ℂ) * (U a i * star (U b i)))
      * ((2 * δ / ((ω + (mu - ε i)) ^ 2 + δ ^ 2) : ℝ) : ℂ)) = U a i * star (U b i) := by
      intro i
      have hpi : (Real.pi : ℂ) ≠ 0 := by exact_mod_cast Real.pi_ne_zero
      rw [integral_const_mul, integral_complex_ofReal, lorentz_integral hδ]
      push_cast
      field_simp
    rw [Finset.sum_congr rfl fun i _ => h5 i]
    have h6 := congrFun (congrFun h2 a) b
    rw [Matrix.mul_apply, Matrix.one_apply] at h6
    exact h6

/-- C105: the free Green's function is the one with vanishing self energy, to which the theorems on causality apply. -/
theorem C105_free {W : Type*} [DecidableEq W] (ranks : ℕ) (hr : 0 < ranks) (mu : ℂ) (hmu : mu.im = 0) (val : W → ℂ)
    (wmesh : List W) (kmesh : List K)
    (hw : wmesh.Nodup) (hk : kmesh.Nodup) (e : K → Matrix n n ℂ) (he : ∀ k, (e k).IsHermitian) (idelta : ℂ) (w : W) (k : K)
    (hwm : w ∈ wmesh) (hkm : k ∈ kmesh) (hz : 0 < (val w + idelta).im) :
    (damping (latticeDysonG0fk ranks mu val wmesh kmesh e idelta (w, k))).PosDef ∧
    ∀ a, ∑ b, ‖latticeDysonG0fk ranks mu val wmesh kmesh e idelta (w, k) a b‖ ^ 2 ≤ 1 / (val w + idelta).im ^ 2 := by
  have h := C105_causal ranks hr mu hmu val wmesh kmesh hw hk e he (.local 0) idelta w k hwm hkm 0
    (selfEnergyAt_term (.local 0) w k) (by simpa [damping] using PosSemidef.zero) hz
  have h0 : latticeDysonGXk ranks mu val wmesh kmesh e (.local 0) idelta = latticeDysonG0fk ranks mu val wmesh kmesh e idelta := by
    simp [latticeDysonGXk, latticeDysonG0fk, Sigma.term]
  rw [h0] at h
  exact h.2

/-- two orbitals with complex hopping, a damped self energy on one of them, on the real axis with broadening -/
example : ∃ (e S : Matrix (Fin 2) (Fin 2) ℂ), e.IsHermitian ∧ (damping S).PosSemidef ∧ ¬ (damping S) = 0 ∧ e 0 1 ≠ 0 ∧
    (damping (latticeDysonGXk 2 (1 : ℂ) (fun w : Fin 2 => (w.val : ℂ)) [0, 1] [()] (fun _ => e) (.local fun _ => S)
      (Complex.I / 10) (1, ()))).PosDef := by
  have h1 : (!![(1 : ℂ), Complex.I; -Complex.I, 2] : Matrix (Fin 2) (Fin 2) ℂ).IsHermitian := by
    ext i j
    fin_cases i <;> fin_cases j <;> simp
  have h2 : damping (diagonal ![-Complex.I, (0 : ℂ)]) = diagonal ![(2 : ℂ), 0] := by
    ext i j
    fin_cases i <;> fin_cases j <;> simp [damping]
    ring_nf
    simp
  have h3 : (damping (diagonal ![-Complex.I, (0 : ℂ)])).PosSemidef := by
    rw [h2]
    refine PosSemidef.diagonal fun i => ?_
    fin_cases i <;> simp
  refine ⟨_, _, h1, h3, ?_, by simp, (C105_causal 2 (by decide) 1 (by simp) _ [0, 1] [()] (by decide) (by decide) _
    (fun _ => h1) (.local fun _ => diagonal ![-Complex.I, (0 : ℂ)]) _ 1 () (by decide) (by decide) _
    (selfEnergyAt_term _ 1 ()) h3 (by simp)).2.1⟩
  rw [h2]
  intro h
  have := congrFun (congrFun h 0) 0
  simp at this

end Verif.Causal
