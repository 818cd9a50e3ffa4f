import Mathlib.Analysis.Normed.Algebra.MatrixExponential
import Mathlib.Analysis.Matrix.Normed
import Mathlib.Analysis.Normed.Module.FiniteDimension
import Mathlib.LinearAlgebra.Matrix.Hermitian
import Mathlib.LinearAlgebra.Matrix.Trace
import Mathlib.Analysis.SpecialFunctions.Exponential

/-!
# Free fermions on a finite Fock space

Partition function, one-particle density matrix and Wick's theorem of the thermal state of a quadratic
Hamiltonian, from the anticommutation relations alone. The operators are matrices over a finite basis.
-/

noncomputable section

set_option linter.unusedSectionVars false

namespace Verif.Fock

open NormedSpace Matrix

variable {J K s : Type*} [Fintype J] [DecidableEq J] [Fintype K] [DecidableEq K] [Fintype s] [DecidableEq s]

theorem semi_exp {x a b : Matrix s s ℂ} (h : x * a = b * x) : x * exp a = exp b * x := by
  let _ : NormedRing (Matrix s s ℂ) := Matrix.linftyOpNormedRing
  let _ : NormedAlgebra ℂ (Matrix s s ℂ) := Matrix.linftyOpNormedAlgebra
  let _ : NormedAlgebra ℚ (Matrix s s ℂ) := NormedAlgebra.restrictScalars ℚ ℂ _
  have : CompleteSpace (Matrix s s ℂ) := FiniteDimensional.complete ℂ _
  exact SemiconjBy.exp_right (show SemiconjBy x a b from h)

/-- the canonical anticommutation relations of annihilation operators `c j` -/
structure Fermions (c : J → Matrix s s ℂ) : Prop where
  anti : ∀ i j, c i * c j + c j * c i = 0
  mixed : ∀ i j, c i * (c j)ᴴ + (c j)ᴴ * c i = if i = j then 1 else 0

/-- annihilation operators of the modes in the columns of `W` -/
def rot (W : Matrix J K ℂ) (c : J → Matrix s s ℂ) (k : K) : Matrix s s ℂ := ∑ j, star (W j k) • c j

theorem rot_mixed {c : J → Matrix s s ℂ} (hc : Fermions c) (W : Matrix J K ℂ) (k : K) (j : J) :
    rot W c k * (c j)ᴴ + (c j)ᴴ * rot W c k = star (W j k) • (1 : Matrix s s ℂ) := by
  simp only [rot, Finset.sum_mul, Finset.mul_sum, ← Finset.sum_add_distrib, smul_mul_assoc, mul_smul_comm,
    ← smul_add, hc.mixed]
  simp

theorem rot_anti {c : J → Matrix s s ℂ} (hc : Fermions c) (W : Matrix J K ℂ) (k : K) (j : J) :
    rot W c k * c j + c j * rot W c k = 0 := by
  simp only [rot, Finset.sum_mul, Finset.mul_sum, ← Finset.sum_add_distrib, smul_mul_assoc, mul_smul_comm,
    ← smul_add, hc.anti]
  simp

theorem Fermions.rot {c : J → Matrix s s ℂ} (hc : Fermions c) {W : Matrix J K ℂ} (hW : Wᴴ * W = 1) :
    Fermions (rot W c) where
  anti k l := by
    conv_lhs => rw [Fock.rot.eq_def W c l]
    simp only [Finset.sum_mul, Finset.mul_sum, ← Finset.sum_add_distrib, smul_mul_assoc, mul_smul_comm,
      ← smul_add, rot_anti hc]
    simp
  mixed k l := by
    have h1 : (Fock.rot W c l)ᴴ = ∑ j, W j l • (c j)ᴴ := by
      rw [Fock.rot.eq_def, Matrix.conjTranspose_sum]
      refine Finset.sum_congr rfl fun j _ => ?_
      rw [Matrix.conjTranspose_smul, star_star]
    rw [h1]
    simp only [Finset.sum_mul, Finset.mul_sum, ← Finset.sum_add_distrib, smul_mul_assoc, mul_smul_comm,
      ← smul_add, rot_mixed hc, smul_smul]
    rw [← Finset.sum_smul]
    have h2 : ∑ j, W j l * star (W j k) = (Wᴴ * W) k l := by
      rw [Matrix.mul_apply]
      exact Finset.sum_congr rfl fun j _ => by rw [Matrix.conjTranspose_apply, mul_comm]
    rw [h2, hW, Matrix.one_apply]
    split_ifs <;> simp

theorem rot_inv {c : J → Matrix s s ℂ} {W : Matrix J K ℂ} (hW : W * Wᴴ = 1) (j : J) :
    c j = ∑ k, W j k • rot W c k := by
  simp only [rot, Finset.smul_sum, smul_smul]
  rw [Finset.sum_comm]
  simp only [← Finset.sum_smul]
  have h2 : ∀ i, ∑ k, W j k * star (W i k) = (W * Wᴴ) j i := by
    intro i
    rw [Matrix.mul_apply]
    exact Finset.sum_congr rfl fun k _ => by rw [Matrix.conjTranspose_apply]
  simp only [h2, hW, Matrix.one_apply, ite_smul, one_smul, zero_smul]
  simp

theorem rot_rot {L : Type*} [Fintype L] [DecidableEq L] (W : Matrix J K ℂ) (V : Matrix K L ℂ)
    (c : J → Matrix s s ℂ) : rot V (rot W c) = rot (W * V) c := by
  funext l
  simp only [rot, Finset.smul_sum, smul_smul, Matrix.mul_apply, star_sum, Finset.sum_smul, star_mul]
  rw [Finset.sum_comm]

/-! ## Diagonal Hamiltonians -/

section Diagonal

variable {g : K → Matrix s s ℂ}

/-- occupation number -/
def num (g : K → Matrix s s ℂ) (k : K) : Matrix s s ℂ := (g k)ᴴ * g k

/-- Hamiltonian of independent modes with energies `ε` -/
def diagH (g : K → Matrix s s ℂ) (S : Finset K) (ε : K → ℝ) : Matrix s s ℂ := ∑ k ∈ S, (ε k : ℂ) • num g k

theorem num_herm (k : K) : (num g k)ᴴ = num g k := by
  rw [num, Matrix.conjTranspose_mul, Matrix.conjTranspose_conjTranspose]

theorem diagH_herm (S : Finset K) (ε : K → ℝ) : (diagH g S ε).IsHermitian := by
  rw [Matrix.IsHermitian, diagH, Matrix.conjTranspose_sum]
  refine Finset.sum_congr rfl fun k _ => ?_
  rw [Matrix.conjTranspose_smul, num_herm]
  simp

variable (hg : Fermions g)
include hg

theorem sq_zero (k : K) : g k * g k = 0 := by
  have h := hg.anti k k
  rw [← two_smul ℂ] at h
  exact (smul_eq_zero.1 h).resolve_left two_ne_zero

theorem ann_num (k : K) : g k * num g k = g k := by
  have h := hg.mixed k k
  rw [if_pos rfl] at h
  rw [num, ← mul_assoc, eq_sub_of_add_eq h, sub_mul, one_mul, mul_assoc, sq_zero hg, mul_zero, sub_zero]

theorem num_ann (k : K) : num g k * g k = 0 := by
  rw [num, mul_assoc, sq_zero hg, mul_zero]

theorem num_num (k : K) : num g k * num g k = num g k := by
  have h : (g k)ᴴ * g k * num g k = num g k := by rw [mul_assoc, ann_num hg, num]
  exact h

theorem ann_num_ne {k l : K} (h : k ≠ l) : g k * num g l = num g l * g k := by
  have h1 := hg.mixed k l
  have h2 := hg.anti k l
  rw [if_neg h] at h1
  rw [num, ← mul_assoc, eq_neg_of_add_eq_zero_left h1, neg_mul, mul_assoc, eq_neg_of_add_eq_zero_left h2, mul_neg,
    neg_neg, mul_assoc]

theorem num_comm (k l : K) : num g k * num g l = num g l * num g k := by
  by_cases h : k = l
  · rw [h]
  · have h1 := ann_num_ne hg h
    have h2 : (g k)ᴴ * num g l = num g l * (g k)ᴴ := by
      have := congrArg Matrix.conjTranspose h1
      rw [Matrix.conjTranspose_mul, Matrix.conjTranspose_mul, num_herm] at this
      exact this.symm
    have h3 : (g k)ᴴ * g k * num g l = num g l * ((g k)ᴴ * g k) := by rw [mul_assoc, h1, ← mul_assoc, h2, mul_assoc]
    exact h3

/-- annihilation lowers the energy -/
theorem ann_diagH {S : Finset K} (ε : K → ℝ) {k : K} (hk : k ∈ S) :
    g k * diagH g S ε = (diagH g S ε + (ε k : ℂ) • 1) * g k := by
  rw [diagH, Finset.mul_sum, add_mul, Finset.sum_mul, ← Finset.add_sum_erase S _ hk,
    ← Finset.add_sum_erase S (fun i => (ε i : ℂ) • num g i * g k) hk]
  have : ∑ i ∈ S.erase k, g k * ((ε i : ℂ) • num g i) = ∑ i ∈ S.erase k, (ε i : ℂ) • num g i * g k := by
    refine Finset.sum_congr rfl fun i hi => ?_
    rw [mul_smul_comm, smul_mul_assoc, ann_num_ne hg (Finset.ne_of_mem_erase hi).symm]
  rw [this, mul_smul_comm, smul_mul_assoc, ann_num hg, num_ann hg, smul_zero, zero_add, smul_mul_assoc, one_mul,
    add_comm]

theorem ann_diagH_notMem {S : Finset K} (ε : K → ℝ) {k : K} (hk : k ∉ S) :
    g k * diagH g S ε = diagH g S ε * g k := by
  rw [diagH, Finset.mul_sum, Finset.sum_mul]
  refine Finset.sum_congr rfl fun i hi => ?_
  rw [mul_smul_comm, smul_mul_assoc, ann_num_ne hg (by rintro rfl; exact hk hi)]

theorem exp_add_smul_one (A : Matrix s s ℂ) (a : ℝ) :
    exp (A + (a : ℂ) • 1) = (Real.exp a : ℂ) • exp A := by
  have hc : Commute A ((a : ℂ) • (1 : Matrix s s ℂ)) := (Commute.one_right A).smul_right _
  rw [Matrix.exp_add_of_commute _ _ hc]
  have : exp ((a : ℂ) • (1 : Matrix s s ℂ)) = (Real.exp a : ℂ) • 1 := by
    have h1 : ((a : ℂ) • (1 : Matrix s s ℂ)) = Matrix.diagonal (fun _ => (a : ℂ)) := by
      rw [Matrix.smul_one_eq_diagonal]
    rw [h1, Matrix.exp_diagonal, Matrix.smul_one_eq_diagonal]
    congr 1
    funext i
    rw [Pi.coe_exp, ← Complex.exp_eq_exp_ℂ, Complex.ofReal_exp]
  rw [this, mul_smul_comm, mul_one]

/-- the relation behind the Kubo-Martin-Schwinger condition -/
theorem ann_exp (ε : K → ℝ) (t : ℝ) (k : K) :
    g k * exp ((t : ℂ) • diagH g Finset.univ ε)
      = (Real.exp (t * ε k) : ℂ) • (exp ((t : ℂ) • diagH g Finset.univ ε) * g k) := by
  have h1 : g k * ((t : ℂ) • diagH g Finset.univ ε)
      = ((t : ℂ) • diagH g Finset.univ ε + ((t * ε k : ℝ) : ℂ) • 1) * g k := by
    rw [mul_smul_comm, ann_diagH hg ε (Finset.mem_univ k), ← smul_mul_assoc, smul_add, smul_smul]
    push_cast
    rfl
  rw [semi_exp h1, exp_add_smul_one hg, smul_mul_assoc]

theorem exp_num (a : ℝ) (k : K) :
    exp ((a : ℂ) • num g k) = 1 + ((Real.exp a - 1 : ℝ) : ℂ) • num g k := by
  have h1 : num g k * ((a : ℂ) • num g k) = (0 + (a : ℂ) • 1) * num g k := by
    rw [zero_add, mul_smul_comm, num_num hg, smul_mul_assoc, one_mul]
  have h2 : (1 - num g k) * ((a : ℂ) • num g k) = 0 * (1 - num g k) := by
    rw [mul_smul_comm, sub_mul, num_num hg, one_mul, sub_self, smul_zero, zero_mul]
  have h3 := semi_exp h1
  have h4 := semi_exp h2
  rw [exp_add_smul_one hg, exp_zero, smul_mul_assoc, one_mul] at h3
  rw [exp_zero, one_mul, sub_mul, one_mul, h3] at h4
  rw [eq_add_of_sub_eq h4]
  push_cast
  rw [sub_smul, one_smul]
  abel

/-- Partition function of independent modes. -/
theorem trace_exp (ε : K → ℝ) (t : ℝ) (S : Finset K) :
    (exp ((t : ℂ) • diagH g S ε)).trace
      = (Fintype.card s : ℂ) * ∏ k ∈ S, ((1 + Real.exp (t * ε k)) / 2 : ℝ) := by
  induction S using Finset.induction_on with
  | empty => simp [diagH]
  | insert k S hk ih =>
    have hcomm : Commute ((t : ℂ) • (ε k : ℂ) • num g k) ((t : ℂ) • diagH g S ε) := by
      refine (Commute.smul_left ?_ _).smul_right _
      refine Commute.smul_left ?_ _
      refine Commute.sum_right _ _ _ fun i _ => Commute.smul_right ?_ _
      exact num_comm hg k i
    have h1 : (t : ℂ) • diagH g (insert k S) ε = (t : ℂ) • (ε k : ℂ) • num g k + (t : ℂ) • diagH g S ε := by
      rw [diagH, Finset.sum_insert hk, smul_add, ← diagH]
    have h2 : (t : ℂ) • (ε k : ℂ) • num g k = ((t * ε k : ℝ) : ℂ) • num g k := by
      rw [smul_smul]; push_cast; rfl
    rw [h1, Matrix.exp_add_of_commute _ _ hcomm, h2, exp_num hg, add_mul, one_mul, Matrix.trace_add, smul_mul_assoc,
      Matrix.trace_smul]
    have h3 : g k * exp ((t : ℂ) • diagH g S ε) = exp ((t : ℂ) • diagH g S ε) * g k := by
      refine semi_exp ?_
      rw [mul_smul_comm, ann_diagH_notMem hg ε hk, smul_mul_assoc]
    have h4 : (num g k * exp ((t : ℂ) • diagH g S ε)).trace
        = (exp ((t : ℂ) • diagH g S ε)).trace - (num g k * exp ((t : ℂ) • diagH g S ε)).trace := by
      have h := hg.mixed k k
      rw [if_pos rfl] at h
      conv_lhs => rw [num, mul_assoc, Matrix.trace_mul_comm, h3, mul_assoc, eq_sub_of_add_eq h, mul_sub, mul_one,
        Matrix.trace_sub, Matrix.trace_mul_comm, ← num, Matrix.trace_mul_comm]
      rw [Matrix.trace_mul_comm (exp _) (num g k)]
    have h5 : (num g k * exp ((t : ℂ) • diagH g S ε)).trace = (exp ((t : ℂ) • diagH g S ε)).trace / 2 := by
      linear_combination h4 / 2
    rw [h5, ih, Finset.prod_insert hk, smul_eq_mul]
    push_cast
    ring

end Diagonal

/-! ## Thermal expectation values -/

/-- thermal expectation value for the Hamiltonian `H` at inverse temperature `β` -/
def thermal (β : ℝ) (H : Matrix s s ℂ) : Matrix s s ℂ →ₗ[ℂ] ℂ where
  toFun X := (exp (((-β : ℝ) : ℂ) • H) * X).trace / (exp (((-β : ℝ) : ℂ) • H)).trace
  map_add' X Y := by rw [mul_add, Matrix.trace_add, add_div]
  map_smul' a X := by rw [mul_smul_comm, Matrix.trace_smul, smul_eq_mul, mul_div_assoc]; rfl

/-- Fermi function -/
def fermi (β x : ℝ) : ℝ := 1 / (Real.exp (β * x) + 1)

theorem fermi_eq (β x : ℝ) : fermi β x = Real.exp (-β * x) / (1 + Real.exp (-β * x)) := by
  rw [fermi, neg_mul, Real.exp_neg]
  have := Real.exp_pos (β * x)
  field_simp

section Wick

variable {c : J → Matrix s s ℂ} (hc : Fermions c) {W : Matrix J K ℂ} (h1 : Wᴴ * W = 1) (h2 : W * Wᴴ = 1)
  (β : ℝ) (ε : K → ℝ)
include hc h1

/-- cyclic property with an annihilation operator of an eigenmode -/
theorem thermal_cyc (X : Matrix s s ℂ) (k : K) :
    thermal β (diagH (rot W c) Finset.univ ε) (X * rot W c k)
      = (Real.exp (-β * ε k) : ℂ) * thermal β (diagH (rot W c) Finset.univ ε) (rot W c k * X) := by
  simp only [thermal, LinearMap.coe_mk, AddHom.coe_mk]
  rw [← mul_assoc, Matrix.trace_mul_comm, ← mul_assoc, ann_exp (hc.rot h1) ε (-β) k, smul_mul_assoc,
    Matrix.trace_smul, smul_eq_mul, mul_assoc, mul_div_assoc]

theorem thermal_one [Nonempty s] : thermal β (diagH (rot W c) Finset.univ ε) 1 = 1 := by
  simp only [thermal, LinearMap.coe_mk, AddHom.coe_mk]
  rw [mul_one, div_self]
  rw [trace_exp (hc.rot h1)]
  refine mul_ne_zero (by exact_mod_cast Fintype.card_ne_zero) ?_
  norm_cast
  exact Finset.prod_ne_zero_iff.2 fun k _ => by positivity

theorem thermal_pair_mode [Nonempty s] (i : J) (k : K) :
    thermal β (diagH (rot W c) Finset.univ ε) ((c i)ᴴ * rot W c k) = star (W i k) * fermi β (ε k) := by
  set φ := thermal β (diagH (rot W c) Finset.univ ε) with hφ
  have e1 := thermal_cyc hc h1 β ε ((c i)ᴴ) k
  rw [← hφ, eq_sub_of_add_eq (rot_mixed hc W k i), map_sub, map_smul, hφ, thermal_one hc h1, ← hφ, smul_eq_mul,
    mul_one] at e1
  rw [fermi_eq, Complex.ofReal_div, Complex.ofReal_add, Complex.ofReal_one]
  have hp : (1 + Real.exp (-β * ε k) : ℝ) ≠ 0 := by positivity
  have hp' : (1 + (Real.exp (-β * ε k) : ℂ)) ≠ 0 := by exact_mod_cast hp
  generalize (Real.exp (-β * ε k) : ℂ) = x at e1 hp' ⊢
  field_simp
  linear_combination e1

theorem thermal_wick_mode [Nonempty s] (a b d : J) (k : K) :
    thermal β (diagH (rot W c) Finset.univ ε) ((c a)ᴴ * (c b)ᴴ * c d * rot W c k)
      = thermal β (diagH (rot W c) Finset.univ ε) ((c a)ᴴ * rot W c k)
          * thermal β (diagH (rot W c) Finset.univ ε) ((c b)ᴴ * c d)
        - thermal β (diagH (rot W c) Finset.univ ε) ((c a)ᴴ * c d)
          * thermal β (diagH (rot W c) Finset.univ ε) ((c b)ᴴ * rot W c k) := by
  rw [thermal_pair_mode hc h1, thermal_pair_mode hc h1]
  set φ := thermal β (diagH (rot W c) Finset.univ ε) with hφ
  have e1 := thermal_cyc hc h1 β ε ((c a)ᴴ * (c b)ᴴ * c d) k
  have e2 : rot W c k * ((c a)ᴴ * (c b)ᴴ * c d) = star (W a k) • ((c b)ᴴ * c d) - star (W b k) • ((c a)ᴴ * c d)
      - (c a)ᴴ * (c b)ᴴ * c d * rot W c k := by
    have r1 := eq_sub_of_add_eq (rot_mixed hc W k a)
    have r2 := eq_sub_of_add_eq (rot_mixed hc W k b)
    have r3 := eq_neg_of_add_eq_zero_left (rot_anti hc W k d)
    calc rot W c k * ((c a)ᴴ * (c b)ᴴ * c d) = rot W c k * (c a)ᴴ * (c b)ᴴ * c d := by noncomm_ring
      _ = star (W a k) • ((c b)ᴴ * c d) - (c a)ᴴ * (rot W c k * (c b)ᴴ) * c d := by
        rw [r1, sub_mul, sub_mul, smul_mul_assoc, smul_mul_assoc, one_mul]; noncomm_ring
      _ = star (W a k) • ((c b)ᴴ * c d) - star (W b k) • ((c a)ᴴ * c d) + (c a)ᴴ * (c b)ᴴ * (rot W c k * c d) := by
        rw [r2, mul_sub, sub_mul, mul_smul_comm, smul_mul_assoc, mul_one]; noncomm_ring
      _ = _ := by rw [r3]; noncomm_ring
  rw [← hφ, e2, map_sub, map_sub, map_smul, map_smul, smul_eq_mul, smul_eq_mul] at e1
  rw [fermi_eq, Complex.ofReal_div, Complex.ofReal_add, Complex.ofReal_one]
  have hp : (1 + Real.exp (-β * ε k) : ℝ) ≠ 0 := by positivity
  have hp' : (1 + (Real.exp (-β * ε k) : ℂ)) ≠ 0 := by exact_mod_cast hp
  generalize (Real.exp (-β * ε k) : ℂ) = x at e1 hp' ⊢
  field_simp
  linear_combination e1

include h2

/-- The one-particle density matrix is the Fermi function of the one-body Hamiltonian. -/
theorem thermal_pair [Nonempty s] (i j : J) :
    thermal β (diagH (rot W c) Finset.univ ε) ((c i)ᴴ * c j) = ∑ k, W j k * fermi β (ε k) * star (W i k) := by
  conv_lhs => rw [rot_inv (c := c) h2 j, Finset.mul_sum, map_sum]
  refine Finset.sum_congr rfl fun k _ => ?_
  rw [mul_smul_comm, map_smul, thermal_pair_mode hc h1, smul_eq_mul]
  ring

/-- Wick's theorem for two particles. -/
theorem thermal_wick [Nonempty s] (a b d e : J) :
    thermal β (diagH (rot W c) Finset.univ ε) ((c a)ᴴ * (c b)ᴴ * c d * c e)
      = thermal β (diagH (rot W c) Finset.univ ε) ((c a)ᴴ * c e)
          * thermal β (diagH (rot W c) Finset.univ ε) ((c b)ᴴ * c d)
        - thermal β (diagH (rot W c) Finset.univ ε) ((c a)ᴴ * c d)
          * thermal β (diagH (rot W c) Finset.univ ε) ((c b)ᴴ * c e) := by
  have key : ∀ X : Matrix s s ℂ, thermal β (diagH (rot W c) Finset.univ ε) (X * c e)
      = ∑ k, W e k * thermal β (diagH (rot W c) Finset.univ ε) (X * rot W c k) := by
    intro X
    conv_lhs => rw [rot_inv (c := c) h2 e, Finset.mul_sum, map_sum]
    refine Finset.sum_congr rfl fun k _ => ?_
    rw [mul_smul_comm, map_smul, smul_eq_mul]
  rw [key, key, key, Finset.sum_mul, Finset.mul_sum, ← Finset.sum_sub_distrib]
  refine Finset.sum_congr rfl fun k _ => ?_
  rw [thermal_wick_mode hc h1]
  ring

end Wick

end Verif.Fock
