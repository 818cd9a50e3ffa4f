import Verif.Lindhard.Model
import Mathlib.Analysis.Matrix.Spectrum
import Mathlib.Tactic.NoncommRing

/-!
# Functions of a hermitian matrix do not depend on the eigenbasis
-/

noncomputable section

namespace Verif.Lindhard

open Complex Verif.Parallel Verif.Fourier Verif.Bubble Matrix

variable {o : Type*} [Fintype o] [DecidableEq o]

set_option linter.unusedSectionVars false

/-- `(ε, U)` diagonalises `m` -/
def Diag (m : Matrix o o ℂ) (p : (o → ℝ) × Matrix o o ℂ) : Prop :=
  p.2ᴴ * p.2 = 1 ∧ p.2 * p.2ᴴ = 1 ∧ m = p.2 * diagonal (fun i => (p.1 i : ℂ)) * p.2ᴴ

/-- function of a matrix through a diagonalisation -/
def matFun (p : (o → ℝ) × Matrix o o ℂ) (f : ℝ → ℂ) : Matrix o o ℂ :=
  p.2 * diagonal (fun i => f (p.1 i)) * p.2ᴴ

theorem matFun_apply (p : (o → ℝ) × Matrix o o ℂ) (f : ℝ → ℂ) (a b : o) :
    matFun p f a b = ∑ c, p.2 a c * f (p.1 c) * p.2ᴴ c b := by
  rw [matFun, Matrix.mul_apply]
  simp only [Matrix.mul_diagonal]

theorem matFun_unique {m : Matrix o o ℂ} {p q : (o → ℝ) × Matrix o o ℂ} (hp : Diag m p) (hq : Diag m q)
    (f : ℝ → ℂ) : matFun p f = matFun q f := by
  obtain ⟨p1, p2, p3⟩ := hp
  obtain ⟨q1, q2, q3⟩ := hq
  have key : q.2ᴴ * p.2 * diagonal (fun i => (p.1 i : ℂ)) = diagonal (fun i => (q.1 i : ℂ)) * (q.2ᴴ * p.2) := by
    calc q.2ᴴ * p.2 * diagonal (fun i => (p.1 i : ℂ))
        = q.2ᴴ * (p.2 * diagonal (fun i => (p.1 i : ℂ)) * p.2ᴴ) * p.2 := by
          rw [show q.2ᴴ * (p.2 * diagonal (fun i => (p.1 i : ℂ)) * p.2ᴴ) * p.2
            = q.2ᴴ * p.2 * diagonal (fun i => (p.1 i : ℂ)) * (p.2ᴴ * p.2) by noncomm_ring, p1, mul_one]
      _ = q.2ᴴ * (q.2 * diagonal (fun i => (q.1 i : ℂ)) * q.2ᴴ) * p.2 := by rw [← p3, q3]
      _ = _ := by
          rw [show q.2ᴴ * (q.2 * diagonal (fun i => (q.1 i : ℂ)) * q.2ᴴ) * p.2
            = (q.2ᴴ * q.2) * diagonal (fun i => (q.1 i : ℂ)) * (q.2ᴴ * p.2) by noncomm_ring, q1, one_mul]
  have key2 : q.2ᴴ * p.2 * diagonal (fun i => f (p.1 i)) = diagonal (fun i => f (q.1 i)) * (q.2ᴴ * p.2) := by
    ext i j
    have h := congrFun (congrFun key i) j
    simp only [Matrix.mul_diagonal, Matrix.diagonal_mul] at h ⊢
    by_cases hw : (q.2ᴴ * p.2) i j = 0
    · simp [hw]
    · have : (p.1 j : ℂ) = q.1 i := by
        rw [mul_comm] at h
        exact mul_right_cancel₀ hw h
      have : p.1 j = q.1 i := by exact_mod_cast this
      rw [this, mul_comm]
  calc matFun p f = (q.2 * q.2ᴴ) * (p.2 * diagonal (fun i => f (p.1 i)) * p.2ᴴ) := by
        rw [q2, one_mul]; rfl
    _ = q.2 * (q.2ᴴ * p.2 * diagonal (fun i => f (p.1 i))) * p.2ᴴ := by noncomm_ring
    _ = q.2 * diagonal (fun i => f (q.1 i)) * q.2ᴴ * (p.2 * p.2ᴴ) := by rw [key2]; noncomm_ring
    _ = _ := by rw [p2, mul_one]; rfl

/-- eigenbasis of the transpose -/
theorem Diag.transpose {m : Matrix o o ℂ} {p : (o → ℝ) × Matrix o o ℂ} (hp : Diag m p) :
    Diag mᵀ (p.1, p.2.map (starRingEnd ℂ)) := by
  obtain ⟨p1, p2, p3⟩ := hp
  have e : (p.2.map (starRingEnd ℂ))ᴴ = p.2ᵀ := by
    ext i j; simp [Matrix.conjTranspose_apply]
  have e' : p.2.map (starRingEnd ℂ) = (p.2ᴴ)ᵀ := by
    ext i j; simp [Matrix.conjTranspose_apply]
  refine ⟨?_, ?_, ?_⟩
  · simp only [e]
    rw [e', ← Matrix.transpose_mul, p1, transpose_one]
  · simp only [e]
    rw [e', ← Matrix.transpose_mul, p2, transpose_one]
  · simp only [e]
    rw [e']
    conv_lhs => rw [p3]
    rw [Matrix.transpose_mul, Matrix.transpose_mul, diagonal_transpose, mul_assoc]

theorem matFun_transpose (p : (o → ℝ) × Matrix o o ℂ) (f : ℝ → ℂ) :
    matFun (p.1, p.2.map (starRingEnd ℂ)) f = (matFun p f)ᵀ := by
  ext a b
  rw [Matrix.transpose_apply, matFun_apply, matFun_apply]
  refine Finset.sum_congr rfl fun c _ => ?_
  simp [Matrix.conjTranspose_apply]
  ring

theorem matFun_conjTranspose (p : (o → ℝ) × Matrix o o ℂ) (f : ℝ → ℂ) :
    (matFun p f)ᴴ = matFun p (fun x => (starRingEnd ℂ) (f x)) := by
  rw [matFun, matFun, conjTranspose_mul, conjTranspose_mul, conjTranspose_conjTranspose,
    diagonal_conjTranspose, mul_assoc]
  rfl

theorem matFun_one {m : Matrix o o ℂ} {p : (o → ℝ) × Matrix o o ℂ} (hp : Diag m p) :
    matFun p (fun _ => 1) = 1 := by
  rw [matFun, diagonal_one, mul_one, hp.2.1]

/-- double function -/
def dbl (p q : (o → ℝ) × Matrix o o ℂ) (h : ℝ → ℝ → ℂ) : T4 o := fun a b c d =>
  ∑ i, ∑ j, p.2 a i * p.2ᴴ i d * q.2 c j * q.2ᴴ j b * h (p.1 i) (q.1 j)

theorem dbl_eq (p q : (o → ℝ) × Matrix o o ℂ) (h : ℝ → ℝ → ℂ) (a b c d : o) :
    dbl p q h a b c d = ∑ i, p.2 a i * matFun q (h (p.1 i)) c b * p.2ᴴ i d := by
  simp only [dbl, matFun_apply, Finset.mul_sum, Finset.sum_mul]
  refine Finset.sum_congr rfl fun i _ => Finset.sum_congr rfl fun j _ => ?_
  ring

theorem dbl_swap (p q : (o → ℝ) × Matrix o o ℂ) (h : ℝ → ℝ → ℂ) (a b c d : o) :
    dbl p q h a b c d = dbl q p (fun x y => h y x) c d a b := by
  simp only [dbl]
  rw [Finset.sum_comm]
  refine Finset.sum_congr rfl fun i _ => Finset.sum_congr rfl fun j _ => ?_
  ring

theorem dbl_unique {m m' : Matrix o o ℂ} {p p' q q' : (o → ℝ) × Matrix o o ℂ} (hp : Diag m p)
    (hp' : Diag m p') (hq : Diag m' q) (hq' : Diag m' q') (h : ℝ → ℝ → ℂ) : dbl p q h = dbl p' q' h := by
  funext a b c d
  rw [dbl_eq]
  simp only [matFun_unique hq hq']
  rw [← dbl_eq, dbl_swap, dbl_eq]
  simp only [matFun_unique hp hp']
  rw [dbl_swap p' q', dbl_eq]

/-- a separable double function is a product of two functions -/
theorem dbl_sep (p q : (o → ℝ) × Matrix o o ℂ) (f g : ℝ → ℂ) (a b c d : o) :
    dbl p q (fun x y => f x * g y) a b c d = matFun p f a d * matFun q g c b := by
  rw [matFun_apply, matFun_apply, Finset.sum_mul_sum]
  simp only [dbl]
  refine Finset.sum_congr rfl fun i _ => Finset.sum_congr rfl fun j _ => ?_
  ring

/-- `EigSpec` is satisfiable: the spectral theorem. -/
theorem exists_eigSpec : ∃ eig : Eig o, EigSpec eig := by
  classical
  refine ⟨fun m => if h : m.IsHermitian then (h.eigenvalues, h.eigenvectorUnitary) else (0, 1), ?_⟩
  intro m h
  simp only [h, dif_pos]
  refine ⟨?_, ?_, ?_⟩
  · have := h.eigenvectorUnitary.2
    rw [Matrix.mem_unitaryGroup_iff'] at this
    exact this
  · have := h.eigenvectorUnitary.2
    rw [Matrix.mem_unitaryGroup_iff] at this
    exact this
  · have := h.spectral_theorem
    conv_lhs => rw [this]
    rfl

end Verif.Lindhard
