import Verif.Basis.Spec
import Verif.Rpa.Model
import Verif.Parallel.Lemmas
import Verif.Gw.Props
import Mathlib.LinearAlgebra.Matrix.NonsingularInverse
import Mathlib.Tactic.Ring

/-!
# Algebra of rotated arrays
-/

set_option linter.unusedSectionVars false

noncomputable section

namespace Verif.Basis

open Verif.Bubble (T4)

variable {o : Type*} [Fintype o] [DecidableEq o]

/-- matrix of a pair of rotations -/
def kr (A B : Matrix o o ℂ) : Matrix (o × o) (o × o) ℂ := fun p q => A p.1 q.1 * B p.2 q.2

theorem kr_mul (A B C D : Matrix o o ℂ) : kr A B * kr C D = kr (A * C) (B * D) := by
  ext p q
  simp only [kr, Matrix.mul_apply, Fintype.sum_prod_type, Finset.sum_mul_sum]
  exact Finset.sum_congr rfl fun _ _ => Finset.sum_congr rfl fun _ _ => by ring

theorem kr_one : kr (1 : Matrix o o ℂ) 1 = 1 := by
  ext p q
  rcases p with ⟨a, b⟩
  rcases q with ⟨c, d⟩
  simp only [kr, Matrix.one_apply, Prod.mk.injEq]
  by_cases h1 : a = c <;> by_cases h2 : b = d <;> simp [h1, h2]

theorem kr_transpose (A B : Matrix o o ℂ) : (kr A B).transpose = kr A.transpose B.transpose := rfl

theorem sum4_comm {M : Type*} [AddCommMonoid M] (f : o → o → o → o → M) :
    ∑ a, ∑ b, ∑ c, ∑ d, f a b c d = ∑ c, ∑ d, ∑ a, ∑ b, f a b c d := by
  calc ∑ a, ∑ b, ∑ c, ∑ d, f a b c d = ∑ p : o × o, ∑ q : o × o, f p.1 p.2 q.1 q.2 := by
        simp only [Fintype.sum_prod_type]
    _ = ∑ q : o × o, ∑ p : o × o, f p.1 p.2 q.1 q.2 := Finset.sum_comm
    _ = _ := by simp only [Fintype.sum_prod_type]

theorem pairMat_rot4 (A B C D : Matrix o o ℂ) (T : T4 o) :
    Rpa.pairMat (rot4 A B C D T) = kr A B * Rpa.pairMat T * (kr C D).transpose := by
  ext ⟨a, b⟩ ⟨c, d⟩
  simp only [Rpa.pairMat, rot4, Matrix.mul_apply, Fintype.sum_prod_type, kr, Matrix.transpose_apply, Finset.sum_mul]
  rw [sum4_comm]
  exact Finset.sum_congr rfl fun _ _ => Finset.sum_congr rfl fun _ _ => Finset.sum_congr rfl fun _ _ =>
    Finset.sum_congr rfl fun _ _ => by ring

theorem rot4_matTensor (A B C D : Matrix o o ℂ) (M : Matrix (o × o) (o × o) ℂ) :
    rot4 A B C D (Rpa.matTensor M) = Rpa.matTensor (kr A B * M * (kr C D).transpose) := by
  have h := pairMat_rot4 A B C D (Rpa.matTensor M)
  funext a b c d
  exact congrFun (congrFun h (a, b)) (c, d)

/-- array as a vector of pairs -/
def vec (X : o → o → ℂ) : o × o → ℂ := fun p => X p.1 p.2

theorem vec_rot2 (A B : Matrix o o ℂ) (X : o → o → ℂ) : vec (rot2 A B X) = (kr A B).mulVec (vec X) := by
  funext ⟨a, b⟩
  simp only [vec, rot2, Matrix.mulVec, dotProduct, Fintype.sum_prod_type, kr]

/-- contraction over the last two indices -/
def contract (T : T4 o) (X : o → o → ℂ) : o → o → ℂ := fun a b => ∑ c, ∑ d, T a b c d * X c d

theorem vec_contract (T : T4 o) (X : o → o → ℂ) :
    vec (contract T X) = (Rpa.pairMat T).mulVec (vec X) := by
  funext ⟨a, b⟩
  simp only [vec, contract, Matrix.mulVec, dotProduct, Fintype.sum_prod_type, Rpa.pairMat]

theorem vec_inj {X Y : o → o → ℂ} (h : vec X = vec Y) : X = Y := by
  funext a b
  exact congrFun h (a, b)

theorem kr_cancel (C D P Q : Matrix o o ℂ) (h1 : C.transpose * P = 1) (h2 : D.transpose * Q = 1) :
    (kr C D).transpose * kr P Q = 1 := by
  rw [kr_transpose, kr_mul, h1, h2, kr_one]

/-- a contraction of rotated arrays is the rotated contraction -/
theorem contract_rot (A B C D P Q : Matrix o o ℂ) (h1 : C.transpose * P = 1) (h2 : D.transpose * Q = 1)
    (T : T4 o) (X : o → o → ℂ) :
    contract (rot4 A B C D T) (rot2 P Q X) = rot2 A B (contract T X) := by
  apply vec_inj
  rw [vec_contract, pairMat_rot4, vec_rot2, vec_rot2, vec_contract, Matrix.mulVec_mulVec, Matrix.mulVec_mulVec,
    Matrix.mul_assoc, kr_cancel _ _ _ _ h1 h2, Matrix.mul_one]

/-- index order `a c d b` -/
theorem rot4_acdb (A B C D : Matrix o o ℂ) (T : T4 o) :
    (fun a b c d => rot4 A C D B T a c d b) = rot4 A B C D fun a b c d => T a c d b := by
  funext a b c d
  simp only [rot4]
  refine Finset.sum_congr rfl fun a' _ => ?_
  calc ∑ x, ∑ y, ∑ z, A a a' * C c x * D d y * B b z * T a' x y z
      = ∑ x, ∑ z, ∑ y, A a a' * C c x * D d y * B b z * T a' x y z :=
        Finset.sum_congr rfl fun x _ => Finset.sum_comm
    _ = ∑ z, ∑ x, ∑ y, A a a' * C c x * D d y * B b z * T a' x y z := Finset.sum_comm
    _ = _ := Finset.sum_congr rfl fun _ _ => Finset.sum_congr rfl fun _ _ => Finset.sum_congr rfl fun _ _ => by ring

/-- exchange of the last two indices -/
theorem rot4_swap (A B C D : Matrix o o ℂ) (T : T4 o) :
    (fun a b c d => rot4 A B D C T a b d c) = rot4 A B C D fun a b c d => T a b d c := by
  funext a b c d
  simp only [rot4]
  refine Finset.sum_congr rfl fun a' _ => Finset.sum_congr rfl fun b' _ => ?_
  rw [Finset.sum_comm]
  exact Finset.sum_congr rfl fun _ _ => Finset.sum_congr rfl fun _ _ => by ring

theorem rot2_transpose (A B : Matrix o o ℂ) (X : o → o → ℂ) :
    (fun a b => rot2 B A X b a) = rot2 A B fun a b => X b a := by
  funext a b
  simp only [rot2]
  rw [Finset.sum_comm]
  exact Finset.sum_congr rfl fun _ _ => Finset.sum_congr rfl fun _ _ => by ring

theorem rot4_smul (A B C D : Matrix o o ℂ) (x : ℂ) (T : T4 o) : rot4 A B C D (x • T) = x • rot4 A B C D T := by
  funext a b c d
  simp only [rot4, Pi.smul_apply, smul_eq_mul, Finset.mul_sum]
  exact Finset.sum_congr rfl fun _ _ => Finset.sum_congr rfl fun _ _ => Finset.sum_congr rfl fun _ _ =>
    Finset.sum_congr rfl fun _ _ => by ring

theorem rot4_add (A B C D : Matrix o o ℂ) (T T' : T4 o) :
    rot4 A B C D (T + T') = rot4 A B C D T + rot4 A B C D T' := by
  funext a b c d
  simp only [rot4, Pi.add_apply, mul_add, Finset.sum_add_distrib]

theorem rot2_smul (A B : Matrix o o ℂ) (x : ℂ) (X : o → o → ℂ) : rot2 A B (x • X) = x • rot2 A B X := by
  funext a b
  simp only [rot2, Pi.smul_apply, smul_eq_mul, Finset.mul_sum]
  exact Finset.sum_congr rfl fun _ _ => Finset.sum_congr rfl fun _ _ => by ring

theorem rot2_add (A B : Matrix o o ℂ) (X Y : o → o → ℂ) : rot2 A B (X + Y) = rot2 A B X + rot2 A B Y := by
  funext a b
  simp only [rot2, Pi.add_apply, mul_add, Finset.sum_add_distrib]

/-- `rot2` as a linear map -/
def rot2L (A B : Matrix o o ℂ) : (o → o → ℂ) →ₗ[ℂ] (o → o → ℂ) where
  toFun := rot2 A B
  map_add' := rot2_add A B
  map_smul' := fun x X => rot2_smul A B x X

/-- `rot4` as a linear map -/
def rot4L (A B C D : Matrix o o ℂ) : T4 o →ₗ[ℂ] T4 o where
  toFun := rot4 A B C D
  map_add' := rot4_add A B C D
  map_smul' := fun x X => rot4_smul A B C D x X

/-- product `x_da y_bc` of two rotated matrices -/
theorem rot4_outer (A B C D : Matrix o o ℂ) (X Y : o → o → ℂ) (a b c d : o) :
    rot2 D A X d a * rot2 B C Y b c = rot4 A B C D (fun a b c d => X d a * Y b c) a b c d := by
  simp only [rot2, rot4, Finset.sum_mul_sum]
  calc ∑ d', ∑ b', ∑ a', ∑ c', D d d' * A a a' * X d' a' * (B b b' * C c c' * Y b' c')
      = ∑ d', ∑ a', ∑ b', ∑ c', D d d' * A a a' * X d' a' * (B b b' * C c c' * Y b' c') :=
        Finset.sum_congr rfl fun _ _ => Finset.sum_comm
    _ = ∑ a', ∑ d', ∑ b', ∑ c', D d d' * A a a' * X d' a' * (B b b' * C c c' * Y b' c') := Finset.sum_comm
    _ = ∑ a', ∑ b', ∑ d', ∑ c', D d d' * A a a' * X d' a' * (B b b' * C c c' * Y b' c') :=
        Finset.sum_congr rfl fun _ _ => Finset.sum_comm
    _ = ∑ a', ∑ b', ∑ c', ∑ d', D d d' * A a a' * X d' a' * (B b b' * C c c' * Y b' c') :=
        Finset.sum_congr rfl fun _ _ => Finset.sum_congr rfl fun _ _ => Finset.sum_comm
    _ = _ := Finset.sum_congr rfl fun _ _ => Finset.sum_congr rfl fun _ _ => Finset.sum_congr rfl fun _ _ =>
        Finset.sum_congr rfl fun _ _ => by ring

theorem cj_eq (S : Matrix o o ℂ) : cj S = S.conjTranspose.transpose := rfl

variable {S : Matrix o o ℂ}

theorem Unitary.left (h : Unitary S) : S.conjTranspose * S = 1 := h

theorem Unitary.right (h : Unitary S) : S * S.conjTranspose = 1 := mul_eq_one_comm.mp h

theorem Unitary.cjT (h : Unitary S) : (cj S).transpose * S = 1 := by
  rw [cj_eq, Matrix.transpose_transpose]; exact h

theorem Unitary.tcj (h : Unitary S) : S.transpose * cj S = 1 := by
  rw [cj_eq, ← Matrix.transpose_mul, h, Matrix.transpose_one]

theorem rotG_eq (S X : Matrix o o ℂ) : rotG S X = S * X * S.conjTranspose := by
  ext a b
  simp only [rotG, rot2, Matrix.mul_apply, Finset.sum_mul, cj, Matrix.map_apply, Matrix.conjTranspose_apply]
  rw [Finset.sum_comm]
  exact Finset.sum_congr rfl fun _ _ => Finset.sum_congr rfl fun _ _ => by simp only [RCLike.star_def]; ring

theorem rotG_one (h : Unitary S) : rotG S 1 = 1 := by
  rw [rotG_eq, Matrix.mul_one, h.right]

theorem conj_inv (h : Unitary S) (X : Matrix o o ℂ) :
    (S * X * S.conjTranspose)⁻¹ = S * X⁻¹ * S.conjTranspose := by
  have h1 : S⁻¹ = S.conjTranspose := Matrix.inv_eq_right_inv h.right
  have h2 : S.conjTranspose⁻¹ = S := Matrix.inv_eq_right_inv h.left
  rw [Matrix.mul_inv_rev, Matrix.mul_inv_rev, h1, h2, Matrix.mul_assoc]

/-! ## Linear maps commute with loops and lattice transforms -/

theorem distributedAssign_map {P M M' : Type*} [DecidableEq P] [AddCommMonoid M] [AddCommMonoid M'] (L : M →+ M')
    (ranks : ℕ) (mesh : List P) (f : P → M) (x : P) :
    Parallel.distributedAssign ranks mesh (fun p => L (f p)) x = L (Parallel.distributedAssign ranks mesh f x) := by
  unfold Parallel.distributedAssign Parallel.allReduce Parallel.rankAssign
  rw [map_sum]
  refine Finset.sum_congr rfl fun r _ => ?_
  dsimp only
  rw [Parallel.rankAssign_apply _ (fun p => L (f p)), Parallel.rankAssign_apply]
  split_ifs
  · rfl
  · exact (map_zero L).symm

theorem distributedAssign_congr {P M : Type*} [DecidableEq P] [AddCommMonoid M] (ranks : ℕ) (mesh : List P)
    {f g : P → M} (h : ∀ p, f p = g p) (x : P) :
    Parallel.distributedAssign ranks mesh f x = Parallel.distributedAssign ranks mesh g x := by
  rw [show f = g from funext h]

variable {d : ℕ} {n : Fin d → ℕ} [∀ i, NeZero (n i)]

theorem fftw_map {E E' : Type*} [AddCommGroup E] [Module ℂ E] [AddCommGroup E'] [Module ℂ E'] (L : E →ₗ[ℂ] E') (s : ℤ)
    (f : Fourier.Lat n → E) (x : Fourier.Lat n) : Fourier.fftw s (fun k => L (f k)) x = L (Fourier.fftw s f x) := by
  simp only [Fourier.fftw, map_sum, map_smul]

theorem rToK_map {E E' : Type*} [AddCommGroup E] [Module ℂ E] [AddCommGroup E'] [Module ℂ E'] (L : E →ₗ[ℂ] E')
    (f : Fourier.Lat n → E) (x : Fourier.Lat n) : Fourier.rToK (fun k => L (f k)) x = L (Fourier.rToK f x) :=
  fftw_map L 1 f x

theorem kToR_map {E E' : Type*} [AddCommGroup E] [Module ℂ E] [AddCommGroup E'] [Module ℂ E'] (L : E →ₗ[ℂ] E')
    (f : Fourier.Lat n → E) (x : Fourier.Lat n) : Fourier.kToR (fun k => L (f k)) x = L (Fourier.kToR f x) := by
  unfold Fourier.kToR
  rw [fftw_map, map_smul]

/-- a linear functional applied to every element commutes with a rotation -/
theorem rot2_functional {E : Type*} [AddCommGroup E] [Module ℂ E] (A B : Matrix o o ℂ) (φ : E →ₗ[ℂ] ℂ)
    (f : o → o → E) (a b : o) :
    φ (∑ a', ∑ b', (A a a' * B b b') • f a' b') = rot2 A B (fun a b => φ (f a b)) a b := by
  simp only [map_sum, map_smul, rot2, smul_eq_mul]

theorem rot4_functional {E : Type*} [AddCommGroup E] [Module ℂ E] (A B C D : Matrix o o ℂ) (φ : E →ₗ[ℂ] ℂ)
    (f : o → o → o → o → E) (a b c d : o) :
    φ (∑ a', ∑ b', ∑ c', ∑ d', (A a a' * B b b' * C c c' * D d d') • f a' b' c' d')
      = rot4 A B C D (fun a b c d => φ (f a b c d)) a b c d := by
  simp only [map_sum, map_smul, rot4, smul_eq_mul]

theorem rot2_pointwise {X : Type*} (A B : Matrix o o ℂ) (φ : (X → ℂ) →ₗ[ℂ] ℂ) (f : X → o → o → ℂ) (a b : o) :
    φ (fun x => rot2 A B (f x) a b) = rot2 A B (fun a b => φ fun x => f x a b) a b := by
  rw [← rot2_functional A B φ (fun a b x => f x a b)]
  congr 1
  funext x
  simp only [rot2, Finset.sum_apply, Pi.smul_apply, smul_eq_mul]

theorem rot4_pointwise {X : Type*} (A B C D : Matrix o o ℂ) (φ : (X → ℂ) →ₗ[ℂ] ℂ) (f : X → T4 o) (a b c d : o) :
    φ (fun x => rot4 A B C D (f x) a b c d) = rot4 A B C D (fun a b c d => φ fun x => f x a b c d) a b c d := by
  rw [← rot4_functional A B C D φ (fun a b c d x => f x a b c d)]
  congr 1
  funext x
  simp only [rot4, Finset.sum_apply, Pi.smul_apply, smul_eq_mul]

end Verif.Basis
