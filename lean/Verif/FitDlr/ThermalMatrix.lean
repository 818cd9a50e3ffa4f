import Verif.FitDlr.Thermal
import Mathlib.Analysis.Normed.Algebra.MatrixExponential
import Mathlib.Analysis.Matrix.Normed
import Mathlib.LinearAlgebra.Matrix.PosDef
import Mathlib.Analysis.Normed.Module.FiniteDimension
import Mathlib.Analysis.Complex.Order
import Mathlib.LinearAlgebra.Matrix.Notation

/-!
# C101 for matrices: operators on a finite Fock space with a Hermitian Hamiltonian
-/

noncomputable section

set_option linter.unusedSectionVars false

namespace Verif.FitDlr

open Verif.Operators NormedSpace
open scoped ComplexOrder

variable {ι : Type} [LinearOrder ι] {I : Type} [Fintype I] [DecidableEq I]

attribute [local instance] Matrix.linftyOpNormedRing Matrix.linftyOpNormedAlgebra

instance : CompleteSpace (Matrix I I ℂ) := FiniteDimensional.complete ℂ _

/-- the trace of a matrix -/
def matTrace : Matrix I I ℂ →L[ℂ] ℂ := LinearMap.toContinuousLinearMap (Matrix.traceLinearMap I ℂ ℂ)

theorem matTrace_apply (M : Matrix I I ℂ) : matTrace M = M.trace := rfl

theorem exp_trace_ne_zero [Nonempty I] (H : Matrix I I ℂ) (hH : H.IsHermitian) (t : ℝ) : (exp (t • H)).trace ≠ 0 := by
  have h1 : ((t / 2) • H).IsHermitian := by
    unfold Matrix.IsHermitian
    rw [Matrix.conjTranspose_smul, hH.eq]
    simp
  have h2 : exp (t • H) = (exp ((t / 2) • H)).conjTranspose * exp ((t / 2) • H) := by
    rw [(Matrix.IsHermitian.exp h1).eq, ← Matrix.exp_add_of_commute _ _ (Commute.refl _), ← add_smul, add_halves]
  rw [h2]
  intro h0
  have h3 := Matrix.trace_conjTranspose_mul_self_eq_zero_iff.1 h0
  have h4 : (exp ((t / 2) • H) : Matrix I I ℂ) * exp ((-(t / 2)) • H) = 1 := exp_smul_mul_exp_neg_smul H (t / 2)
  rw [h3, zero_mul] at h4
  obtain ⟨i⟩ := ‹Nonempty I›
  have := congrFun (congrFun h4 i) i
  simp at this

/-- C101, matrices: the relations hold for every Hermitian Hamiltonian on a finite Fock space at every temperature. -/
theorem C101_matrix [Nonempty I] {e : Gen ι → Matrix I I ℂ} (he : CAR e) (fs : List ι) (hnd : fs.Nodup) (x : Op ι)
    (hx : Canonical x) (hform : ∀ m ∈ x.support, m = [] ∨ (∃ i j, m = K2 fs i j) ∨ IsQuartic fs m)
    (hherm : (eval e x).IsHermitian)
    (ts : List (Mono ι × ℂ)) (hts : Enumerates ts x) (h : Fin fs.length → Fin fs.length → ℂ) (Γ : T4 fs.length)
    (hh : quadraticMatrixFromOperator fs ts = .ok h) (hΓ : getRpaTensor fs ts = .ok Γ) (β : ℝ) :
    let G := fun (a b : Fin fs.length) => thermalG matTrace β (eval e x) e (fs.get a) (fs.get b)
    (∀ a b, G a b 0 + G a b β = if a = b then -1 else 0) ∧
    (∀ a b, Differentiable ℝ (G a b)) ∧
    ∀ a b, deriv (G a b) 0 + deriv (G a b) β = h a b + HartreeFock.meanField Γ (fun c d => -G c d β) a b :=
  C101_thermal he fs hnd x hx hform ts hts h Γ hh hΓ matTrace (fun y z => Matrix.trace_mul_comm y z) β
    (exp_trace_ne_zero (eval e x) hherm (-β))

/-! ### The Hubbard atom -/

/-- annihilation operators of two orbitals in the basis `|00>, |10>, |01>, |11>` -/
def atomZ : Fin 2 → Matrix (Fin 4) (Fin 4) ℤ :=
  ![!![0, 1, 0, 0; 0, 0, 0, 0; 0, 0, 0, 1; 0, 0, 0, 0], !![0, 0, 1, 0; 0, 0, 0, -1; 0, 0, 0, 0; 0, 0, 0, 0]]

def atomGenZ (g : Gen (Fin 2)) : Matrix (Fin 4) (Fin 4) ℤ := if g.dag then (atomZ g.idx).transpose else atomZ g.idx

def atomGen (g : Gen (Fin 2)) : Matrix (Fin 4) (Fin 4) ℂ := (atomGenZ g).map (Int.castRingHom ℂ)

theorem atom_car : CAR atomGen := by
  have hZ : ∀ d d' : Bool, ∀ i i' : Fin 2, atomGenZ ⟨d, i⟩ * atomGenZ ⟨d', i'⟩ + atomGenZ ⟨d', i'⟩ * atomGenZ ⟨d, i⟩
      = if d ≠ d' ∧ i = i' then 1 else 0 := by decide +kernel
  rintro ⟨d, i⟩ ⟨d', i'⟩
  have h := congrArg (fun M : Matrix (Fin 4) (Fin 4) ℤ => (Int.castRingHom ℂ).mapMatrix M) (hZ d d' i i')
  simp only [map_add, map_mul] at h
  refine h.trans ?_
  unfold contraction
  split_ifs <;> simp

/-- `U n_0 n_1` -/
def atomMono : Mono (Fin 2) := [⟨true, 0⟩, ⟨true, 1⟩, ⟨false, 1⟩, ⟨false, 0⟩]

/-- The hypotheses of `C101_matrix` hold for the Hubbard atom: the sum of the slopes is `U <n_1>`. -/
example (U β : ℝ) (hU : U ≠ 0) :
    let G := fun a b => thermalG matTrace β (eval atomGen (Finsupp.single atomMono (U : ℂ))) atomGen a b
    deriv (G 0 0) 0 + deriv (G 0 0) β = U * -G 1 1 β := by
  have hU' : (U : ℂ) ≠ 0 := by exact_mod_cast hU
  have hE : Enumerates [(atomMono, (U : ℂ))] (Finsupp.single atomMono (U : ℂ)) := by
    refine ⟨by simp, fun m a => ?_⟩
    simp only [List.mem_singleton, Prod.mk.injEq]
    constructor
    · rintro ⟨rfl, rfl⟩
      exact ⟨hU', by simp⟩
    · rintro ⟨ha, rfl⟩
      rw [Finsupp.single_apply] at ha ⊢
      split_ifs at ha ⊢ with h
      · exact ⟨h.symm, rfl⟩
      · exact absurd rfl ha
  have hC : Canonical (Finsupp.single atomMono (U : ℂ)) := by
    intro m hm
    have := Finsupp.support_single_subset hm
    rw [Finset.mem_singleton] at this
    subst this
    decide
  have hherm : (eval atomGen (Finsupp.single atomMono (U : ℂ))).IsHermitian := by
    have hprod : ((atomMono.map atomGenZ).prod).transpose = (atomMono.map atomGenZ).prod := by decide +kernel
    have hmap : (atomMono.map atomGen).prod = (Int.castRingHom ℂ).mapMatrix (atomMono.map atomGenZ).prod := by
      rw [map_list_prod, List.map_map]
      rfl
    have hev : eval atomGen (Finsupp.single atomMono (U : ℂ)) = (U : ℂ) • (Int.castRingHom ℂ).mapMatrix (atomMono.map atomGenZ).prod := by
      refine (Finsupp.sum_single_index (h := fun (m : Mono (Fin 2)) (a : ℂ) => a • (m.map atomGen).prod) (zero_smul ℂ _)).trans ?_
      rw [hmap]
    rw [hev]
    ext i j
    have h1 := congrFun (congrFun hprod i) j
    rw [Matrix.transpose_apply] at h1
    simp [Matrix.conjTranspose_apply, h1]
  have hform : ∀ m ∈ (Finsupp.single atomMono (U : ℂ)).support,
      m = [] ∨ (∃ i j, m = K2 [0, 1] i j) ∨ IsQuartic [(0 : Fin 2), 1] m := by
    intro m hm
    have := Finsupp.support_single_subset hm
    rw [Finset.mem_singleton] at this
    subst this
    exact .inr (.inr (by unfold IsQuartic; decide))
  have hΓ : getRpaTensor [(0 : Fin 2), 1] [(atomMono, (U : ℂ))]
      = .ok (fun a b c d => 4 * permSym (set4 (fun _ _ _ _ => 0) 0 1 1 0 (U : ℂ)) b d a c) := rfl
  have hh : quadraticMatrixFromOperator [(0 : Fin 2), 1] [(atomMono, (U : ℂ))] = .ok fun _ _ => 0 := rfl
  have key := (C101_matrix atom_car [0, 1] (by decide) _ hC hform hherm _ hE _ _ hh hΓ β).2.2 0 0
  refine key.trans ?_
  simp [HartreeFock.meanField, Fin.sum_univ_two, permSym, set4]
  left
  ring

end Verif.FitDlr
