import Verif.Fock.Free
import Mathlib.Analysis.Matrix.Spectrum
import Mathlib.Analysis.Convex.SpecificFunctions.Basic
import Mathlib.Analysis.Convex.Jensen

/-!
# The inequality of Peierls and Bogoliubov
-/

noncomputable section

set_option linter.unusedSectionVars false

namespace Verif.Fock

open NormedSpace Matrix

variable {s : Type*} [Fintype s] [DecidableEq s]

/-- eigenvalues and eigenvectors of a Hermitian matrix -/
theorem exists_diag {A : Matrix s s ℂ} (hA : A.IsHermitian) : ∃ (a : s → ℝ) (V : Matrix s s ℂ),
    Vᴴ * V = 1 ∧ V * Vᴴ = 1 ∧ A = V * Matrix.diagonal (fun i => (a i : ℂ)) * Vᴴ := by
  refine ⟨hA.eigenvalues, hA.eigenvectorUnitary, ?_, ?_, ?_⟩
  · have := hA.eigenvectorUnitary.2
    rw [Matrix.mem_unitaryGroup_iff'] at this
    exact this
  · have := hA.eigenvectorUnitary.2
    rw [Matrix.mem_unitaryGroup_iff] at this
    exact this
  · have := hA.spectral_theorem
    conv_lhs => rw [this]
    rfl

theorem exp_of_diag {A V : Matrix s s ℂ} {a : s → ℝ} (h1 : Vᴴ * V = 1) (h2 : V * Vᴴ = 1)
    (hA : A = V * Matrix.diagonal (fun i => (a i : ℂ)) * Vᴴ) :
    exp A = V * Matrix.diagonal (fun i => (Real.exp (a i) : ℂ)) * Vᴴ := by
  have h := semi_exp (x := V) (a := Matrix.diagonal (fun i => (a i : ℂ))) (b := A)
    (by rw [hA, mul_assoc, mul_assoc, h1, mul_one])
  have hd : exp (Matrix.diagonal (fun i => (a i : ℂ))) = Matrix.diagonal (fun i => (Real.exp (a i) : ℂ)) := by
    rw [Matrix.exp_diagonal]
    congr 1
    funext i
    rw [Pi.coe_exp, ← Complex.exp_eq_exp_ℂ, Complex.ofReal_exp]
  rw [hd] at h
  rw [h, mul_assoc, h2, mul_one]

theorem trace_of_diag {V : Matrix s s ℂ} (x : s → ℝ) (B : Matrix s s ℂ) :
    (V * Matrix.diagonal (fun i => (x i : ℂ)) * Vᴴ * B).trace = ∑ i, (x i : ℂ) * (Vᴴ * B * V) i i := by
  rw [mul_assoc, mul_assoc, Matrix.trace_mul_comm, mul_assoc, Matrix.trace]
  refine Finset.sum_congr rfl fun i _ => ?_
  rw [Matrix.diag_apply, Matrix.diagonal_mul]

theorem trace_of_diag_one {V : Matrix s s ℂ} (h1 : Vᴴ * V = 1) (x : s → ℝ) :
    (V * Matrix.diagonal (fun i => (x i : ℂ)) * Vᴴ).trace = ((∑ i, x i : ℝ) : ℂ) := by
  have h := trace_of_diag (V := V) x 1
  rw [mul_one] at h
  rw [h]
  push_cast
  refine Finset.sum_congr rfl fun i _ => ?_
  rw [mul_one, h1, Matrix.one_apply_eq, mul_one]

/-- Peierls' inequality: the sum of the exponentials of the diagonal elements in any orthonormal basis is a lower
bound of the trace of the exponential. -/
theorem peierls {A V : Matrix s s ℂ} (hA : A.IsHermitian) (h1 : Vᴴ * V = 1) (h2 : V * Vᴴ = 1) :
    ∑ i, Real.exp ((Vᴴ * A * V) i i).re ≤ (exp A).trace.re := by
  obtain ⟨l, U, u1, u2, hl⟩ := exists_diag hA
  rw [exp_of_diag u1 u2 hl, trace_of_diag_one u1, Complex.ofReal_re]
  set M : Matrix s s ℂ := Vᴴ * U with hM
  have m1 : M * Mᴴ = 1 := by
    rw [hM, Matrix.conjTranspose_mul, Matrix.conjTranspose_conjTranspose, mul_assoc, ← mul_assoc U, u2, one_mul, h1]
  have m2 : Mᴴ * M = 1 := by
    rw [hM, Matrix.conjTranspose_mul, Matrix.conjTranspose_conjTranspose, mul_assoc, ← mul_assoc V, h2, one_mul, u1]
  have row : ∀ i, ∑ j, Complex.normSq (M i j) = 1 := by
    intro i
    have := congrFun (congrFun m1 i) i
    rw [Matrix.mul_apply, Matrix.one_apply_eq] at this
    have h : ((∑ j, Complex.normSq (M i j) : ℝ) : ℂ) = 1 := by
      rw [← this]; push_cast
      refine Finset.sum_congr rfl fun j _ => ?_
      rw [Matrix.conjTranspose_apply, ← Complex.mul_conj]; rfl
    exact_mod_cast h
  have col : ∀ j, ∑ i, Complex.normSq (M i j) = 1 := by
    intro j
    have := congrFun (congrFun m2 j) j
    rw [Matrix.mul_apply, Matrix.one_apply_eq] at this
    have h : ((∑ i, Complex.normSq (M i j) : ℝ) : ℂ) = 1 := by
      rw [← this]; push_cast
      refine Finset.sum_congr rfl fun i _ => ?_
      rw [Matrix.conjTranspose_apply, mul_comm, ← Complex.mul_conj]; rfl
    exact_mod_cast h
  have hd : ∀ i, ((Vᴴ * A * V) i i).re = ∑ j, Complex.normSq (M i j) • l j := by
    intro i
    have e : Vᴴ * A * V = M * Matrix.diagonal (fun j => (l j : ℂ)) * Mᴴ := by
      rw [hl, hM, Matrix.conjTranspose_mul, Matrix.conjTranspose_conjTranspose]
      simp only [mul_assoc]
    have h : (Vᴴ * A * V) i i = ((∑ j, Complex.normSq (M i j) • l j : ℝ) : ℂ) := by
      rw [e, Matrix.mul_apply]
      push_cast
      refine Finset.sum_congr rfl fun j _ => ?_
      rw [Matrix.mul_diagonal, Matrix.conjTranspose_apply, smul_eq_mul, Complex.ofReal_mul, ← Complex.mul_conj]
      change _ * _ * (starRingEnd ℂ) _ = _
      ring
    rw [h, Complex.ofReal_re]
  calc ∑ i, Real.exp ((Vᴴ * A * V) i i).re ≤ ∑ i, ∑ j, Complex.normSq (M i j) * Real.exp (l j) := by
        refine Finset.sum_le_sum fun i _ => ?_
        rw [hd]
        exact convexOn_exp.map_sum_le (fun j _ => Complex.normSq_nonneg _) (row i) (fun j _ => Set.mem_univ _)
    _ = ∑ j, Real.exp (l j) := by
        rw [Finset.sum_comm]
        refine Finset.sum_congr rfl fun j _ => ?_
        rw [← Finset.sum_mul, col, one_mul]

theorem trace_exp_pos [Nonempty s] {A : Matrix s s ℂ} (hA : A.IsHermitian) : 0 < (exp A).trace.re := by
  obtain ⟨a, V, h1, h2, ha⟩ := exists_diag hA
  rw [exp_of_diag h1 h2 ha, trace_of_diag_one h1, Complex.ofReal_re]
  exact Finset.sum_pos (fun i _ => Real.exp_pos _) Finset.univ_nonempty

theorem trace_exp_real {A : Matrix s s ℂ} (hA : A.IsHermitian) : (exp A).trace = ((exp A).trace.re : ℂ) := by
  obtain ⟨a, V, h1, h2, ha⟩ := exists_diag hA
  rw [exp_of_diag h1 h2 ha, trace_of_diag_one h1, Complex.ofReal_re]

/-- The inequality of Peierls and Bogoliubov. -/
theorem bogoliubov [Nonempty s] {A B : Matrix s s ℂ} (hA : A.IsHermitian) (hB : B.IsHermitian) :
    Real.log (exp A).trace.re + ((exp A * B).trace / (exp A).trace).re ≤ Real.log (exp (A + B)).trace.re := by
  obtain ⟨a, V, h1, h2, ha⟩ := exists_diag hA
  have hp := peierls (hA.add hB) h1 h2
  have hZ := trace_exp_pos hA
  have eZ : (exp A).trace = ((∑ i, Real.exp (a i) : ℝ) : ℂ) := by
    rw [exp_of_diag h1 h2 ha, trace_of_diag_one h1]
  have eB : (exp A * B).trace = ∑ i, (Real.exp (a i) : ℂ) * (Vᴴ * B * V) i i := by
    rw [exp_of_diag h1 h2 ha, trace_of_diag]
  rw [eZ, Complex.ofReal_re] at hZ
  set Z := ∑ i, Real.exp (a i) with hZd
  have ed : ∀ i, ((Vᴴ * (A + B) * V) i i).re = a i + ((Vᴴ * B * V) i i).re := by
    intro i
    have : Vᴴ * (A + B) * V = Matrix.diagonal (fun i => (a i : ℂ)) + Vᴴ * B * V := by
      rw [mul_add, add_mul]
      congr 1
      rw [ha]
      calc Vᴴ * (V * Matrix.diagonal (fun i => (a i : ℂ)) * Vᴴ) * V
          = (Vᴴ * V) * Matrix.diagonal (fun i => (a i : ℂ)) * (Vᴴ * V) := by simp only [mul_assoc]
        _ = _ := by rw [h1, one_mul, mul_one]
    rw [this, Matrix.add_apply, Matrix.diagonal_apply_eq, Complex.add_re, Complex.ofReal_re]
  simp only [ed, Real.exp_add] at hp
  have hj : Real.exp (∑ i, (Real.exp (a i) / Z) • ((Vᴴ * B * V) i i).re)
      ≤ ∑ i, (Real.exp (a i) / Z) • Real.exp ((Vᴴ * B * V) i i).re :=
    convexOn_exp.map_sum_le (fun i _ => by positivity)
      (by rw [← Finset.sum_div, ← hZd, div_self hZ.ne']) (fun i _ => Set.mem_univ _)
  have eq : ((exp A * B).trace / (exp A).trace).re = ∑ i, (Real.exp (a i) / Z) • ((Vᴴ * B * V) i i).re := by
    rw [eB, eZ, Complex.div_ofReal_re, Complex.re_sum, Finset.sum_div]
    refine Finset.sum_congr rfl fun i _ => ?_
    rw [Complex.re_ofReal_mul, smul_eq_mul]
    ring
  rw [eq, eZ, Complex.ofReal_re]
  have hle : Z * Real.exp (∑ i, (Real.exp (a i) / Z) • ((Vᴴ * B * V) i i).re) ≤ (exp (A + B)).trace.re := by
    refine le_trans (mul_le_mul_of_nonneg_left hj hZ.le) (le_trans (le_of_eq ?_) hp)
    rw [Finset.mul_sum]
    refine Finset.sum_congr rfl fun i _ => ?_
    rw [smul_eq_mul]
    field_simp
  have := Real.log_le_log (by positivity) hle
  rwa [Real.log_mul hZ.ne' (Real.exp_pos _).ne', Real.log_exp] at this

end Verif.Fock
