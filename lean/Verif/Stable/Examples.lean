import Verif.Stable.Bands
import Verif.Unique.Examples
import Verif.Causal.SumRule

/-!
# C133: concrete cases
-/

set_option linter.unusedSectionVars false

noncomputable section

namespace Verif.Stable

open scoped ComplexOrder
open Matrix Verif.Unique Verif.Dyson Verif.Causal Verif.HartreeFock Verif.Subsystem Verif.Mirror.Examples Verif.Lindhard

/-- `C133_dyson`, `C133_dyson_local`: two coupled orbitals, one of them damped; a change of the chemical potential -/
example (mu mu' : ℝ) (ranks : ℕ) (hr : 0 < ranks) : ∃ (e S : Matrix (Fin 2) (Fin 2) ℂ), e.IsHermitian ∧ ¬ damping S = 0 ∧ e 0 1 ≠ 0 ∧
    size (latticeDysonGX ranks (mu' : ℂ) (fun w : Fin 2 => (w.val : ℂ)) [0, 1] [()] (fun _ => e) (.local fun _ => S) (Complex.I / 10) 1
        - latticeDysonGX ranks (mu : ℂ) (fun w : Fin 2 => (w.val : ℂ)) [0, 1] [()] (fun _ => e) (.local fun _ => S) (Complex.I / 10) 1)
      ≤ 100 * Real.sqrt 2 * |mu' - mu| := by
  have h1 : (!![(1 : ℂ), Complex.I; -Complex.I, 2] : Matrix (Fin 2) (Fin 2) ℂ).IsHermitian := by
    ext i j
    fin_cases i <;> fin_cases j <;> simp
  have h2 : damping (diagonal ![-Complex.I, (0 : ℂ)]) = diagonal ![(2 : ℂ), 0] := by
    ext i j
    fin_cases i <;> fin_cases j <;> simp [damping]
    ring_nf
    simp
  have h3 : (damping (diagonal ![-Complex.I, (0 : ℂ)])).PosSemidef := by
    rw [h2]
    refine PosSemidef.diagonal ?_
    intro i
    fin_cases i <;> simp
  refine ⟨!![(1 : ℂ), Complex.I; -Complex.I, 2], diagonal ![-Complex.I, (0 : ℂ)], h1, ?_, by simp, ?_⟩
  · rw [h2]
    intro h
    have := congrFun (congrFun h 0) 0
    simp at this
  have hz : ((fun w : Fin 2 => (w.val : ℂ)) 1 + Complex.I / 10).im = 1 / 10 := by simp
  have := C133_dyson_local ranks ranks hr hr (mu : ℂ) (mu' : ℂ) (by simp) (by simp) (fun w : Fin 2 => (w.val : ℂ)) [0, 1] [()] (by simp)
    (by simp) (by simp) (fun _ => !![(1 : ℂ), Complex.I; -Complex.I, 2]) (fun _ => !![(1 : ℂ), Complex.I; -Complex.I, 2]) (fun _ => h1)
    (fun _ => h1) (.local fun _ => diagonal ![-Complex.I, (0 : ℂ)]) (.local fun _ => diagonal ![-Complex.I, (0 : ℂ)]) (Complex.I / 10) 1
    (by simp) (fun _ => diagonal ![-Complex.I, (0 : ℂ)]) (fun _ => diagonal ![-Complex.I, (0 : ℂ)]) (fun k => .loc _ _ k)
    (fun k => .loc _ _ k) (fun _ => h3) (fun _ => h3) (by rw [hz]; norm_num) (Real.sqrt 2 * |mu' - mu|) (fun k _ => ?_)
  · rw [hz] at this
    refine this.trans (le_of_eq ?_)
    norm_num
    ring
  · rw [show ∀ X : Matrix (Fin 2) (Fin 2) ℂ, X - (mu' : ℂ) • 1 - (X - (mu : ℂ) • 1) = ((-(mu' - mu) : ℝ) : ℂ) • 1 by
      intro X
      push_cast
      module, size_smul, abs_neg]
    have : size (1 : Matrix (Fin 2) (Fin 2) ℂ) = Real.sqrt 2 := by
      unfold size size2
      congr 1
      simp [Fin.sum_univ_two]
      norm_num
    rw [this, mul_comm]

/-- `C133_mean_field`: the Hubbard site, any filling, a change of the interaction -/
example (beta u u' : ℝ) (hb : 0 < beta) (h : beta * |u| < 4) (rho rho' : Matrix (Fin 2) (Fin 2) ℂ) (mu mu' : ℝ) (hr : rho.IsHermitian)
    (hr' : rho'.IsHermitian) (hs : Solution (hubbard u) beta mu (fun _ : Unit => 0) rho)
    (hs' : Solution (hubbard u') beta mu' (fun _ : Unit => 0) rho') (hN : Matrix.trace rho = Matrix.trace rho') :
    size (rho' - rho) ≤ beta / 4 / (1 - beta * |u| / 4) * (|u' - u| * size rho') := by
  have e : (fun a b c d => hubbard u' a b c d - hubbard u a b c d) = hubbard (u' - u) := by
    funext a b c d
    unfold hubbard
    split_ifs <;> push_cast <;> ring
  have := C133_mean_field hb (hubbard_bounded u) (by linarith) (U' := hubbard u') hr hr'
    (fun k => by rw [zero_add]; exact ((hubbard_bounded u).2 rho hr).1) (fun k => by rw [zero_add]; exact ((hubbard_bounded u').2 rho' hr').1)
    hs hs' (Or.inr hN)
  rw [e] at this
  refine this.trans (mul_le_mul_of_nonneg_left ?_ (div_nonneg (by positivity) (by linarith)))
  have h0 : rms (fun _ : Unit => (0 : Matrix (Fin 2) (Fin 2) ℂ) - 0) = 0 := by simp [rms, size2]
  rw [h0, zero_add]
  exact ((hubbard_bounded (u' - u)).2 rho' hr').2

/-- `C133_lindhard_tolerance`, `C133_lindhard_bound`: at the jump of the pair of levels -/
example (eig : Eig (Fin 1)) (hs : EigSpec eig) (kmesh : List (Fourier.Lat (fun _ : Fin 1 => 2))) (hnd : kmesh.Nodup)
    (hall : ∀ k, k ∈ kmesh) (tol : ℝ) (h0 : 0 < tol) (t : ℝ) :
    ‖lindhard 1 eig tol 1 0 kmesh (pairBand t) 0 1 0 0 0 0 - lindhard 1 eig (tol / 2) 1 0 kmesh (pairBand t) 0 1 0 0 0 0‖ ≤ tol / 4 ∧
    ‖lindhard 1 eig tol 1 0 kmesh (pairBand t) 0 1 0 0 0 0‖ ≤ 1 / 4 := by
  constructor
  · have := C133_lindhard_tolerance zero_le_one 1 one_pos eig hs tol 0 kmesh hnd hall (pairBand t) (pairBand_hermitian t) 1 0 0 0 0
      (z := 0) (tol / 2) tol h0 (by linarith) le_rfl (by linarith) (fun _ => rfl)
    refine this.trans (le_of_eq ?_)
    ring
  · exact C133_lindhard_bound zero_le_one rfl 1 one_pos eig hs tol 0 kmesh hnd hall (pairBand t) (pairBand_hermitian t) 1 0 0 0 0

theorem pairBand_size (t t' : ℝ) (k : Fourier.Lat (fun _ : Fin 1 => 2)) : size (pairBand t' k - pairBand t k) = |t' - t| / 2 := by
  have e : size2 (pairBand t' k - pairBand t k) = (|t' - t| / 2) ^ 2 := by
    unfold size2
    simp only [Finset.univ_unique, Finset.sum_singleton, Matrix.sub_apply]
    unfold pairBand
    rw [← Complex.ofReal_sub, Complex.norm_real, Real.norm_eq_abs, sq_abs, div_pow, sq_abs]
    split_ifs <;> ring
  unfold size
  rw [e, Real.sqrt_sq (by positivity)]

/-- `C133_lindhard`, `C133_lindhard_static_partial`: two splittings of the pair of levels -/
example (eig : Eig (Fin 1)) (hs : EigSpec eig) (kmesh : List (Fourier.Lat (fun _ : Fin 1 => 2))) (hnd : kmesh.Nodup)
    (hall : ∀ k, k ∈ kmesh) (t t' : ℝ) :
    ‖lindhard 1 eig (1 / 10) 1 0 kmesh (pairBand t') Complex.I 1 0 0 0 0 - lindhard 2 eig (1 / 10) 1 0 kmesh (pairBand t) Complex.I 1 0 0 0 0‖
      ≤ |t' - t| / 2 ∧
    ‖lindhard 1 eig (1 / 10) 1 0 kmesh (pairBand t') 0 1 0 0 0 0 - lindhard 2 eig (1 / 10) 1 0 kmesh (pairBand t) 0 1 0 0 0 0‖
      ≤ |t' - t| / 4 + 1 / 20 := by
  constructor
  · have := C133_lindhard zero_le_one Complex.I_re 2 1 two_pos one_pos eig eig hs hs (1 / 10) 0 (by norm_num) kmesh hnd hall (pairBand t)
      (pairBand t') (pairBand_hermitian t) (pairBand_hermitian t') (|t' - t| / 2) (fun k => (pairBand_size t t' k).le) 1 0 0 0 0 (by rw [Complex.norm_I]; norm_num)
    rw [Complex.norm_I] at this
    refine this.trans (le_of_eq ?_)
    ring
  · refine (C133_lindhard_static_partial zero_le_one 2 1 two_pos one_pos eig eig hs hs (1 / 10) 0 (by norm_num) kmesh hnd hall (pairBand t)
      (pairBand t') (pairBand_hermitian t) (pairBand_hermitian t') (|t' - t| / 2) (fun k => (pairBand_size t t' k).le) 1 0 0 0 0).trans (le_of_eq ?_)
    ring

end Verif.Stable
