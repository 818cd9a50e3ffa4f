import Verif.PointGroup.Lemmas
import Verif.Lindhard.Screening

/-!
# C117: a symmetry that the Lindhard bubble does not have
-/

noncomputable section

namespace Verif.PointGroup

open Complex Matrix Verif.Fourier Verif.Bubble Verif.Basis Verif.Lindhard

theorem twist_rot (g : ℝ → ℝ → ℂ) (hg : ∀ x, g x x = 0) :
    rotChi twist (dbl (twistEnergies, twistU) (twistEnergies, twistU) g) 0 0 0 0
      - dbl (twistEnergies, twistU) (twistEnergies, twistU) g 0 0 0 0 = -29748096 / 244140625 * (g 1 (-1) + g (-1) 1) := by
  have hI : I ^ 2 = -1 := I_sq
  have h4 : I ^ 4 = 1 := by rw [show I ^ 4 = (I ^ 2) ^ 2 by ring, I_sq]; norm_num
  have h6 : I ^ 6 = -1 := by rw [show I ^ 6 = (I ^ 2) ^ 3 by ring, I_sq]; norm_num
  simp only [rotChi, rot4, dbl, twistU_conj]
  simp [twistU, twist, twistEnergies, Fin.sum_univ_two, hg, cj]
  simp only [Complex.conj_ofNat]
  ring_nf
  simp only [hI, h4, h6]
  ring_nf

theorem twist_unitary : Unitary twist := by
  unfold Unitary
  rw [twist_hermitian]
  ext i j
  fin_cases i <;> fin_cases j <;> simp [twist, Matrix.mul_apply, Fin.sum_univ_two] <;> ring_nf <;> (try rw [I_sq]) <;> norm_num

/-- C117 violated: the Lindhard bubble does not have the symmetry of its dispersion if the orbitals are mapped with a complex
matrix, here a single site with two orbitals and a unitary matrix that commutes with the Hamiltonian. -/
theorem C117_lindhard_violated : ∃ (P : PointOp fun _ : Fin 1 => 1) (S : Matrix (Fin 2) (Fin 2) ℂ)
    (e : Lat (fun _ : Fin 1 => 1) → Matrix (Fin 2) (Fin 2) ℂ), Unitary S ∧ (∀ k, (e k).IsHermitian) ∧ SymG P S e ∧
    ∀ (ranks : ℕ) (eig : Eig (Fin 2)) (tol beta : ℝ) (m : ℤ), 0 < ranks → EigSpec eig → 0 < tol → 0 < beta →
      tol ≤ ‖matsubara .boson beta m‖ →
      ¬ SymChi P S fun q => lindhard ranks eig tol beta 0 [0] e (matsubara .boson beta m) q := by
  refine ⟨inversion, twist, fun _ => twist, twist_unitary, fun _ => twist_hermitian, ?_, ?_⟩
  · intro k
    have h : twist * twist = 1 := by
      have := twist_unitary
      unfold Unitary at this
      rwa [twist_hermitian] at this
    rw [rotG_eq, twist_hermitian, h, one_mul]
  · intro ranks eig tol beta m hr hs ht hb htol h
    have hnl : ¬ ‖matsubara .boson beta m‖ < tol := not_lt.2 htol
    have hself : ∀ x, totalFactor tol beta (matsubara .boson beta m) x x = 0 := fun x => by
      rw [totalFactor_self tol beta ht, if_neg hnl]
    have h0 := h 0
    rw [map_zero] at h0
    dsimp only at h0
    rw [twist_lindhard ranks hr hs] at h0
    have h1 := congrFun (congrFun (congrFun (congrFun h0 0) 0) 0) 0
    have h2 := twist_rot _ hself
    rw [← h1, sub_self] at h2
    exact mul_ne_zero (by norm_num) (twist_factor_ne tol beta m hb hnl) h2.symm

end Verif.PointGroup
