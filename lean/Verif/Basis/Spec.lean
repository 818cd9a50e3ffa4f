import Verif.Bubble.Model
import Mathlib.LinearAlgebra.Matrix.ConjTranspose

/-!
# Change of the orbital basis (specification of C104)

New annihilation operators `c'_a = ∑_b S_ab c_b` with a unitary matrix `S`.  An index that belongs to an annihilation
operator of an expectation value is multiplied by `S`, one that belongs to a creation operator by the complex
conjugate of `S`.  An index of an interaction is summed against such an index, so it gets the complex conjugate factor.
-/

noncomputable section

namespace Verif.Basis

open Verif.Bubble (T4)

variable {o : Type*} [Fintype o] [DecidableEq o]

/-- `S` is unitary. -/
def Unitary (S : Matrix o o ℂ) : Prop := S.conjTranspose * S = 1

/-- A rank four array with one matrix for every index. -/
def rot4 (A B C D : Matrix o o ℂ) (T : T4 o) : T4 o := fun a b c d =>
  ∑ a', ∑ b', ∑ c', ∑ d', A a a' * B b b' * C c c' * D d d' * T a' b' c' d'

/-- A rank two array with one matrix for every index. -/
def rot2 (A B : Matrix o o ℂ) (X : o → o → ℂ) : o → o → ℂ := fun a b =>
  ∑ a', ∑ b', A a a' * B b b' * X a' b'

/-- complex conjugate of the elements -/
def cj (S : Matrix o o ℂ) : Matrix o o ℂ := S.map (starRingEnd ℂ)

/-- Green's functions `-<c_a c†_b>`, dispersions and self energies. -/
def rotG (S X : Matrix o o ℂ) : Matrix o o ℂ := rot2 S (cj S) X

/-- Density matrices `<c†_a c_b>`. -/
def rotRho (S : Matrix o o ℂ) (X : o → o → ℂ) : o → o → ℂ := rot2 (cj S) S X

/-- Susceptibilities `<c†_a c_b ; c†_c c_d>`. -/
def rotChi (S : Matrix o o ℂ) (T : T4 o) : T4 o := rot4 (cj S) S (cj S) S T

/-- Interactions `V_abcd` contracted with pairs `c†_a c_b` and `c†_c c_d`. -/
def rotV (S : Matrix o o ℂ) (T : T4 o) : T4 o := rot4 S (cj S) S (cj S) T

/-- Anomalous quantities `<c_a c_b>` and gap functions. -/
def rotGap (S : Matrix o o ℂ) (X : o → o → ℂ) : o → o → ℂ := rot2 S S X

end Verif.Basis
