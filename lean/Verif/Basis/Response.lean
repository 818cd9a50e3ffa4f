import Verif.Basis.Interactions
import Verif.Lindhard.Props

/-!
# C104: change of basis for the Lindhard susceptibility and the real time bubble
-/

set_option linter.unusedSectionVars false

noncomputable section

namespace Verif.Basis

open Matrix Verif.Fourier Verif.Bubble Verif.Parallel Verif.Lindhard

variable {o : Type*} [Fintype o] [DecidableEq o] {d : ℕ} {n : Fin d → ℕ} [∀ i, NeZero (n i)] {S : Matrix o o ℂ}

theorem rotG_hermitian {X : Matrix o o ℂ} (h : X.IsHermitian) : (rotG S X).IsHermitian := by
  rw [rotG_eq]
  exact Matrix.isHermitian_mul_mul_conjTranspose S h

theorem diag_rot (hS : Unitary S) {X : Matrix o o ℂ} {p : (o → ℝ) × Matrix o o ℂ}
    (hp : Diag X p) : Diag (rotG S X) (p.1, S * p.2) := by
  obtain ⟨h1, h2, h3⟩ := hp
  refine ⟨?_, ?_, ?_⟩
  · change (S * p.2)ᴴ * (S * p.2) = 1
    rw [Matrix.conjTranspose_mul, Matrix.mul_assoc, ← Matrix.mul_assoc Sᴴ, hS.left, Matrix.one_mul, h1]
  · change (S * p.2) * (S * p.2)ᴴ = 1
    rw [Matrix.conjTranspose_mul, Matrix.mul_assoc, ← Matrix.mul_assoc p.2, h2, Matrix.one_mul, hS.right]
  · change rotG S X = S * p.2 * diagonal (fun i => (p.1 i : ℂ)) * (S * p.2)ᴴ
    rw [rotG_eq, h3, Matrix.conjTranspose_mul]
    simp only [Matrix.mul_assoc]

theorem rotG_sub_one (hS : Unitary S) (X : Matrix o o ℂ) (z : ℂ) :
    rotG S X - z • 1 = rotG S (X - z • 1) := by
  rw [rotG_eq, rotG_eq, mul_sub, sub_mul, Matrix.mul_smul, Matrix.smul_mul, Matrix.mul_one, hS.right]

theorem dbl_rot (p q : (o → ℝ) × Matrix o o ℂ) (h : ℝ → ℝ → ℂ) :
    dbl (p.1, S * p.2) (q.1, S * q.2) h = rotV S (dbl p q h) := by
  -- the sum over pairs of bands of products of two projectors
  have hs : ∀ p q : (o → ℝ) × Matrix o o ℂ, dbl p q h = ∑ i, ∑ j, h (p.1 i) (q.1 j) •
      fun a b c d => (fun d a => p.2 a i * p.2ᴴ i d) d a * (fun b c => q.2 c j * q.2ᴴ j b) b c := by
    intro p q
    funext a b c d
    simp only [dbl, Finset.sum_apply, Pi.smul_apply, smul_eq_mul]
    exact Finset.sum_congr rfl fun _ _ => Finset.sum_congr rfl fun _ _ => by ring
  have hp : ∀ (p : (o → ℝ) × Matrix o o ℂ) (i : o), (fun d a => (S * p.2) a i * (S * p.2)ᴴ i d)
      = rot2 (cj S) S fun d a => p.2 a i * p.2ᴴ i d := by
    intro p i
    funext d a
    simp only [Matrix.conjTranspose_apply, Matrix.mul_apply, star_sum, star_mul', Finset.sum_mul_sum, rot2, cj,
      Matrix.map_apply]
    rw [Finset.sum_comm]
    exact Finset.sum_congr rfl fun _ _ => Finset.sum_congr rfl fun _ _ => by
      simp only [RCLike.star_def]; ring
  have h1 : ∀ i j, (fun a b c d => (fun d a => (S * p.2) a i * (S * p.2)ᴴ i d) d a
        * (fun b c => (S * q.2) c j * (S * q.2)ᴴ j b) b c)
      = rotV S fun a b c d => (fun d a => p.2 a i * p.2ᴴ i d) d a * (fun b c => q.2 c j * q.2ᴴ j b) b c := by
    intro i j
    rw [hp p i, hp q j]
    funext a b c d
    exact rot4_outer S (cj S) S (cj S) _ _ a b c d
  rw [hs, hs p q]
  change _ = rot4L S (cj S) S (cj S) _
  simp only [map_sum, map_smul]
  refine Finset.sum_congr rfl fun i _ => Finset.sum_congr rfl fun j _ => ?_
  exact congrArg _ (h1 i j)

/-- C104, partial: the Lindhard susceptibility of the rotated dispersion is the original one rotated by the conjugate of
the rule for susceptibilities (`rotV` instead of `rotChi`).  Missing: it is not the rotated susceptibility in the
convention of the bubbles, because its pairs of orbitals are exchanged (see C21); `C104_lindhard_iff` says for which
results this makes no difference. -/
theorem C104_lindhard_partial (hS : Unitary S) (ranks : ℕ) (hr : 0 < ranks) {eig : Eig o} (he : EigSpec eig)
    (tol beta mu : ℝ) (kmesh : List (Lat n)) (hnd : kmesh.Nodup) (hall : ∀ k, k ∈ kmesh) (e : Lat n → Matrix o o ℂ)
    (hh : ∀ k, (e k).IsHermitian) (z : ℂ) (q : Lat n) :
    lindhard ranks eig tol beta mu kmesh (fun k => rotG S (e k)) z q
      = rotV S (lindhard ranks eig tol beta mu kmesh e z q) := by
  rw [lindhard_eq ranks hr _ _ _ _ _ hnd hall, lindhard_eq ranks hr _ _ _ _ _ hnd hall]
  change _ = rot4L S (cj S) S (cj S) _
  rw [map_smul, map_sum]
  congr 1
  refine Finset.sum_congr rfl fun k _ => ?_
  have hd : ∀ k, (e k - (mu : ℂ) • 1).IsHermitian := fun k =>
    (hh k).sub (Matrix.IsHermitian.ext fun i j => by
      by_cases h : i = j
      · subst h; simp
      · simp [Matrix.one_apply_ne h, Matrix.one_apply_ne (Ne.symm h)])
  have hk : ∀ k, Diag (rotG S (e k - (mu : ℂ) • 1)) (sys eig mu (fun k => rotG S (e k)) k) := by
    intro k
    have := he _ (rotG_hermitian (S := S) (hd k))
    rw [← rotG_sub_one hS] at this ⊢
    exact this
  have h1 := dbl_unique (hk k) (diag_rot hS (he _ (hd k))) (hk (k + q)) (diag_rot hS (he _ (hd (k + q))))
    (totalFactor tol beta z)
  rw [h1]
  exact dbl_rot _ _ _

/-- C104: the Lindhard susceptibility follows the rule for susceptibilities exactly if the result does not distinguish it
from the conjugate rule. -/
theorem C104_lindhard_iff (hS : Unitary S) (ranks : ℕ) (hr : 0 < ranks) {eig : Eig o} (he : EigSpec eig)
    (tol beta mu : ℝ) (kmesh : List (Lat n)) (hnd : kmesh.Nodup) (hall : ∀ k, k ∈ kmesh) (e : Lat n → Matrix o o ℂ)
    (hh : ∀ k, (e k).IsHermitian) (z : ℂ) (q : Lat n) :
    lindhard ranks eig tol beta mu kmesh (fun k => rotG S (e k)) z q
        = rotChi S (lindhard ranks eig tol beta mu kmesh e z q) ↔
      rotV S (lindhard ranks eig tol beta mu kmesh e z q) = rotChi S (lindhard ranks eig tol beta mu kmesh e z q) := by
  rw [C104_lindhard_partial hS ranks hr he tol beta mu kmesh hnd hall e hh z q]

/-- C104, partial: the real time bubble of rotated Green's functions: the second and third index follow the conjugate of
the rule for susceptibilities.  Missing: the correct rule, see `C104_real_time_violated`. -/
theorem C104_real_time_partial {T : Type*} (les gtr : T → Lat n → o → o → ℂ) (t : T) (r : Lat n) :
    chi0Tr (fun t r => rotG S (les t r)) (fun t r => rotG S (gtr t r)) t r
      = rot4 (cj S) (cj S) S S (chi0Tr les gtr t r) := by
  have hs : ∀ les gtr : T → Lat n → o → o → ℂ, chi0Tr les gtr t r
      = Complex.I • (fun a b c d => les t r d a * (fun b c => (starRingEnd ℂ) (gtr t (-r) b c)) b c)
        - Complex.I • fun a b c d => gtr t r d a * (fun b c => (starRingEnd ℂ) (les t (-r) b c)) b c := by
    intro les gtr
    funext a b c d
    simp only [chi0Tr, Pi.sub_apply, Pi.smul_apply, smul_eq_mul, mul_assoc]
  have hc : ∀ x : o → o → ℂ, (fun b c => (starRingEnd ℂ) (rotG S x b c)) = rot2 (cj S) S fun b c => (starRingEnd ℂ) (x b c) := by
    intro x
    funext b c
    simp only [rotG, rot2, map_sum, map_mul, cj, Matrix.map_apply, Complex.conj_conj]
  have h1 : ∀ x y : o → o → ℂ, (fun a b c d => rotG S x d a * (fun b c => (starRingEnd ℂ) (rotG S y b c)) b c)
      = rot4 (cj S) (cj S) S S fun a b c d => x d a * (fun b c => (starRingEnd ℂ) (y b c)) b c := by
    intro x y
    rw [hc]
    funext a b c d
    exact rot4_outer (cj S) (cj S) S S x _ a b c d
  rw [hs les gtr]
  change _ = rot4L (cj S) (cj S) S S _
  rw [map_sub, map_smul, map_smul]
  refine (hs (fun t r => rot2 S (cj S) (les t r)) fun t r => rot2 S (cj S) (gtr t r)).trans ?_
  exact congrArg₂ _ (congrArg _ (h1 _ _)) (congrArg _ (h1 _ _))

end Verif.Basis
