import Verif.Bse.Tail
import Verif.Rpa.Props
import Mathlib.Analysis.Matrix.Normed
import Mathlib.Analysis.Normed.Ring.Units

/-!
# C130: the Bethe-Salpeter equation with the vertex of the random phase approximation

`get_gamma_rpa` builds the vertex that is independent of the fermionic frequencies, for which the Bethe-Salpeter equation is
the random phase approximation. The frequency sums of the Bethe-Salpeter solvers have to agree with `solve_rpa_PH`.
-/

noncomputable section

set_option linter.unusedSectionVars false

namespace Verif.Agree

open Verif.Parallel Verif.Bse
open Verif.Rpa (pairMat matTensor rpaPoint swapPairs swapLast solveRpaPH)

section Algebra

variable {F : Type*} [Field F] {o : Type*} [Fintype o] [DecidableEq o] {ν : Type*} [Fintype ν] [DecidableEq ν]
variable {W K : Type*} [DecidableEq W] [DecidableEq K]

/-- `get_gamma_rpa`, `/repo/python/triqs_tprf/rpa_tensor.py:73-84`: on the meshes of `chi0_wnn`, the same tensor
`U_abcd / beta**2` at all three frequencies. -/
def getGammaRpa (beta : F) (U : T4 o F) : W → T6 ν o F := fun _ _ _ a b c d => U a b c d / beta ^ 2

/-- the bubble summed over the fermionic frequencies: what `solve_rpa_PH` is given -/
def summedBubble (beta : F) (chi0 : ν → T4 o F) : T4 o F := fun a b c d => (∑ n, chi0 n a b c d) / beta ^ 2

variable {m : Type*} [Fintype m] [DecidableEq m]

variable (F ν m) in
/-- sum over the frequencies of a vector index -/
def spread : Matrix (ν × m) m F := fun p q => if p.2 = q then 1 else 0

theorem spread_mul (A : Matrix m m F) (p : ν × m) (q : m) : (spread F ν m * A) p q = A p.2 q := by
  rw [Matrix.mul_apply, Finset.sum_eq_single p.2]
  · simp [spread]
  · intro b _ hb
    rw [spread, if_neg (Ne.symm hb), zero_mul]
  · simp

theorem spreadT_mul {l : Type*} (A : Matrix (ν × m) l F) (p : m) (q : l) :
    ((spread F ν m).transpose * A) p q = ∑ n, A (n, p) q := by
  rw [Matrix.mul_apply, Fintype.sum_prod_type]
  refine Finset.sum_congr rfl fun n _ => ?_
  rw [Finset.sum_eq_single p]
  · simp [spread, Matrix.transpose_apply]
  · intro b _ hb
    rw [Matrix.transpose_apply, spread, if_neg hb, zero_mul]
  · simp

theorem mul_spread {l : Type*} (A : Matrix l (ν × m) F) (p : l) (q : m) :
    (A * spread F ν m) p q = ∑ n, A p (n, q) := by
  rw [Matrix.mul_apply, Fintype.sum_prod_type]
  refine Finset.sum_congr rfl fun n _ => ?_
  rw [Finset.sum_eq_single q]
  · simp [spread]
  · intro b _ hb
    rw [spread, if_neg hb, mul_zero]
  · simp

/-- A vertex that does not depend on the frequencies: the equation for all frequencies has a solution when the one for the
sums has. -/
theorem spread_det (D : Matrix (ν × m) (ν × m) F) (V : Matrix m m F) :
    (1 - D * (spread F ν m * V * (spread F ν m).transpose)).det = (1 - (spread F ν m).transpose * D * spread F ν m * V).det := by
  have h : D * (spread F ν m * V * (spread F ν m).transpose) = (D * spread F ν m * V) * (spread F ν m).transpose := by
    simp only [Matrix.mul_assoc]
  rw [h, Matrix.det_one_sub_mul_comm]
  simp only [Matrix.mul_assoc]

/-- and the sums of the solution are the solution for the sums -/
theorem spread_solve (D : Matrix (ν × m) (ν × m) F) (V : Matrix m m F)
    (h : IsUnit (1 - (spread F ν m).transpose * D * spread F ν m * V).det) :
    (spread F ν m).transpose * ((1 - D * (spread F ν m * V * (spread F ν m).transpose))⁻¹ * D) * spread F ν m
      = (1 - (spread F ν m).transpose * D * spread F ν m * V)⁻¹ * ((spread F ν m).transpose * D * spread F ν m) := by
  have h' : IsUnit (1 - D * (spread F ν m * V * (spread F ν m).transpose)).det := by rwa [spread_det]
  have e : (1 - (spread F ν m).transpose * D * spread F ν m * V) * (spread F ν m).transpose
      = (spread F ν m).transpose * (1 - D * (spread F ν m * V * (spread F ν m).transpose)) := by
    rw [Matrix.sub_mul, Matrix.mul_sub, Matrix.one_mul, Matrix.mul_one]
    simp only [Matrix.mul_assoc]
  refine solve_of_eq h ?_
  rw [← Matrix.mul_assoc, ← Matrix.mul_assoc, e, Matrix.mul_assoc (spread F ν m).transpose, Matrix.mul_nonsing_inv_cancel_left _ _ h']

theorem chMat_gammaRpa (beta : F) (U : T4 o F) (w : W) :
    chMat .PH (getGammaRpa (ν := ν) beta U w)
      = spread F ν (o × o) * ((beta ^ 2)⁻¹ • pairMat (swapLast U)) * (spread F ν (o × o)).transpose := by
  ext p q
  rw [Matrix.mul_apply]
  rw [Finset.sum_eq_single q.2]
  · rw [spread_mul, Matrix.transpose_apply, spread, if_pos rfl, mul_one, Matrix.smul_apply, smul_eq_mul]
    simp only [chMat, getGammaRpa, pairMat, swapLast]
    rw [div_eq_inv_mul]
  · intro b _ hb
    rw [Matrix.transpose_apply, spread, if_neg (Ne.symm hb), mul_zero]
  · simp

theorem spread_diagEmbed (chi0 : ν → T4 o F) :
    (spread F ν (o × o)).transpose * chMat .PH (diagEmbed chi0) * spread F ν (o × o) = ∑ n, pairMat (swapLast (chi0 n)) := by
  ext p q
  rw [mul_spread, Matrix.sum_apply]
  refine Finset.sum_congr rfl fun n _ => ?_
  rw [spreadT_mul, Finset.sum_eq_single n]
  · simp [chMat, diagEmbed, pairMat, swapLast]
  · intro b _ hb
    simp [chMat, diagEmbed, hb]
  · simp

theorem pairMat_summed (beta : F) (chi0 : ν → T4 o F) :
    pairMat (swapLast (summedBubble beta chi0)) = (beta ^ 2)⁻¹ • ∑ n, pairMat (swapLast (chi0 n)) := by
  ext p q
  rw [Matrix.smul_apply, Matrix.sum_apply, smul_eq_mul]
  simp only [pairMat, swapLast, summedBubble]
  rw [div_eq_inv_mul]

/-- the denominators agree -/
theorem denominators (beta : F) (chi0 : ν → T4 o F) (U : T4 o F) (w : W) :
    (1 - chMat .PH (diagEmbed chi0) * chMat .PH (getGammaRpa (ν := ν) beta U w)).det
      = (1 - pairMat (summedBubble beta chi0) * pairMat (swapPairs U)).det := by
  rw [chMat_gammaRpa, spread_det, spread_diagEmbed]
  have h1 : pairMat (swapLast (summedBubble beta chi0)) * pairMat (swapLast U)
      = pairMat (summedBubble beta chi0) * pairMat (swapPairs U) := by
    ext ⟨a, b⟩ ⟨c, d⟩
    rw [Rpa.pairMat_mul_apply, Rpa.pairMat_mul_apply, Finset.sum_comm]
    rfl
  rw [← h1, pairMat_summed, Matrix.mul_smul, Matrix.smul_mul]

/-- one momentum and bosonic frequency -/
theorem bse_rpa_point (beta : F) (chi0 : ν → T4 o F) (U : T4 o F) (w : W)
    (h : IsUnit (1 - pairMat (summedBubble beta chi0) * pairMat (swapPairs U)).det) :
    traceNu beta (bsePoint (diagEmbed chi0) (getGammaRpa beta U w))
      = rpaPoint (summedBubble beta chi0) (swapPairs U) := by
  have hd : IsUnit (1 - (spread F ν (o × o)).transpose * chMat .PH (diagEmbed chi0) * spread F ν (o × o)
      * ((beta ^ 2)⁻¹ • pairMat (swapLast U))).det := by
    rw [← spread_det, ← chMat_gammaRpa (W := W) beta U w, denominators]
    exact h
  have h1 := spread_solve (chMat .PH (diagEmbed chi0)) ((beta ^ 2)⁻¹ • pairMat (swapLast U)) hd
  have h2 : (beta ^ 2)⁻¹ • ((spread F ν (o × o)).transpose * chMat .PH (bsePoint (diagEmbed chi0) (getGammaRpa (ν := ν) beta U w)) * spread F ν (o × o))
      = pairMat (rpaPoint (swapLast (summedBubble beta chi0)) (swapLast U)) := by
    rw [chMat_bsePoint, chMat_gammaRpa, h1, spread_diagEmbed, rpaPoint, Rpa.pairMat_matTensor, pairMat_summed,
      Matrix.mul_smul, Matrix.smul_mul, Matrix.mul_smul]
  rw [Rpa.rpaPoint_swapLast] at h2
  funext a b c d
  have h3 := congrFun (congrFun h2 (a, b)) (d, c)
  rw [Matrix.smul_apply, mul_spread, smul_eq_mul] at h3
  refine Eq.trans ?_ h3
  rw [Finset.sum_congr rfl fun n2 _ => spreadT_mul _ _ _, traceNu, Finset.sum_comm, div_eq_inv_mul, pow_two]
  rfl

/-- C130 (solvability): the Bethe-Salpeter equation with the vertex of `get_gamma_rpa` is regular exactly when the RPA
equation of the summed bubble is, for interactions with `U(b a d c) = U(a b c d)`: both diverge at the same points. -/
theorem C130_same_poles (beta : F) (chi0 : ν → T4 o F) (U : T4 o F) (hU : ∀ a b c d, U b a d c = U a b c d) (w : W) :
    IsUnit (1 - chMat .PH (diagEmbed chi0) * chMat .PH (getGammaRpa (ν := ν) beta U w)).det ↔
      IsUnit (1 - pairMat (summedBubble beta chi0) * pairMat U).det := by
  have h : swapPairs U = U := by funext a b c d; exact hU a b c d
  rw [denominators, h]

/-- C130 (Bethe-Salpeter and RPA), for interactions with `U(b a d c) = U(a b c d)`, for example real ones: with the vertex of
`get_gamma_rpa` every route to the summed susceptibility, on any number of ranks, returns what `solve_rpa_PH` returns for
`chi0q_sum_nu` of the same bubble. Missing: complex interactions, `C130_bse_rpa_violated`. -/
theorem C130_bse_rpa_partial (r1 r2 r3 : ℕ) (h1 : 0 < r1) (h2 : 0 < r2) (h3 : 0 < r3) (beta : F) (mesh : List (K × W))
    (hm : mesh.Nodup) (wkmesh : List (W × K)) (hm' : wkmesh.Nodup) (chi0 : W → ν → K → T4 o F) (U : T4 o F)
    (hU : ∀ a b c d, U b a d c = U a b c d) (k : K) (w : W) (hp : (k, w) ∈ mesh) (hp' : (w, k) ∈ wkmesh)
    (hdet : IsUnit (1 - pairMat (chi0qSumNu r2 beta wkmesh chi0 (w, k)) * pairMat U).det) :
    chiqSumNuFromChi0qAndGamma r1 beta mesh chi0 (getGammaRpa beta U) (k, w)
        = solveRpaPH r3 wkmesh (chi0qSumNu r2 beta wkmesh chi0) U (w, k) ∧
    chiqSumNu beta (chiqFromChi0qAndGamma chi0 (getGammaRpa beta U)) k w
        = solveRpaPH r3 wkmesh (chi0qSumNu r2 beta wkmesh chi0) U (w, k) := by
  have hs : swapPairs U = U := by funext a b c d; exact hU a b c d
  have hb : chi0qSumNu r2 beta wkmesh chi0 (w, k) = summedBubble beta fun n => chi0 w n k := by
    rw [chi0qSumNu, C02_distributedAssign r2 h2 _ hm', if_pos hp']
    funext a b c d
    rw [summedBubble, pow_two]
  have hr := bse_rpa_point beta (fun n => chi0 w n k) U w (by rw [hs, ← hb]; exact hdet)
  rw [Rpa.solveRpaPH_apply r3 h3 _ hm' _ _ _ hp', hb]
  rw [hs] at hr
  refine ⟨?_, ?_⟩
  · rw [chiqSumNuFromChi0qAndGamma, C02_distributedAssign r1 h1 _ hm, if_pos hp]
    exact hr
  · exact hr

/-- C130 (documented equation): for every interaction the summed susceptibility of the Bethe-Salpeter solver with this vertex
solves the RPA equation as it is documented for `solve_rpa_PH`. -/
theorem C130_bse_documented (r1 : ℕ) (h1 : 0 < r1) (beta : F) (mesh : List (K × W)) (hm : mesh.Nodup)
    (chi0 : W → ν → K → T4 o F) (U : T4 o F) (k : K) (w : W) (hp : (k, w) ∈ mesh)
    (hdet : IsUnit (1 - chMat .PH (diagEmbed fun n => chi0 w n k) * chMat .PH (getGammaRpa (W := W) (ν := ν) beta U w)).det) :
    Rpa.DocumentedRpa (summedBubble beta fun n => chi0 w n k) U
      (chiqSumNuFromChi0qAndGamma r1 beta mesh chi0 (getGammaRpa beta U) (k, w)) := by
  rw [denominators] at hdet
  rw [chiqSumNuFromChi0qAndGamma, C02_distributedAssign r1 h1 _ hm, if_pos hp, Rpa.documentedRpa_iff, Rpa.unswappedRpa_iff]
  dsimp only
  rw [bse_rpa_point beta _ U w hdet]
  exact Rpa.rpa_eq_of_unit _ _ hdet

end Algebra

/-- C130 (Bethe-Salpeter and RPA) is violated for complex interactions: an interaction with all symmetries of the RPA tensor of
a hermitian Hamiltonian and a bubble on one fermionic frequency, both equations regular, for which the Bethe-Salpeter route
and `solve_rpa_PH` return different susceptibilities, at any temperature. -/
theorem C130_bse_rpa_violated (r1 r2 r3 : ℕ) (h1 : 0 < r1) (h2 : 0 < r2) (h3 : 0 < r3) (beta : ℂ) (hb : beta ≠ 0) :
    ∃ (chi0 : Unit → Unit → Unit → T4 (Fin 3) ℂ) (U : T4 (Fin 3) ℂ),
      (∀ a b c d, U c b a d = -U a b c d) ∧ (∀ a b c d, U a d c b = -U a b c d) ∧
      (∀ a b c d, U b a d c = star (U a b c d)) ∧
      IsUnit (1 - chMat .PH (diagEmbed fun n => chi0 () n ()) * chMat .PH (getGammaRpa (W := Unit) (ν := Unit) beta U ())).det ∧
      IsUnit (1 - pairMat (chi0qSumNu r2 beta [((), ())] chi0 ((), ())) * pairMat U).det ∧
      chiqSumNuFromChi0qAndGamma r1 beta [((), ())] chi0 (getGammaRpa beta U) ((), ())
        ≠ solveRpaPH r3 [((), ())] (chi0qSumNu r2 beta [((), ())] chi0) U ((), ()) := by
  obtain ⟨chi, U, hU1, hU2, hU3, hd, hd', hne⟩ := Rpa.C14_documented_violated
  have hsum : summedBubble beta (fun n : Unit => fun a b c d => beta ^ 2 * chi a b c d) = chi := by
    funext a b c d
    rw [summedBubble, Fintype.sum_unique, mul_div_assoc, mul_div_cancel₀]
    exact pow_ne_zero 2 hb
  have hb2 : chi0qSumNu r2 beta [((), ())] (fun (_ _ _ : Unit) a b c d => beta ^ 2 * chi a b c d) ((), ()) = chi := by
    rw [chi0qSumNu, C02_distributedAssign r2 h2 _ (List.nodup_singleton _), if_pos (List.mem_singleton_self _)]
    refine Eq.trans ?_ hsum
    funext a b c d
    rw [summedBubble, pow_two]
  have hdet : IsUnit (1 - chMat .PH (diagEmbed (fun _ : Unit => fun a b c d => beta ^ 2 * chi a b c d : Unit → T4 (Fin 3) ℂ))
      * chMat .PH (getGammaRpa (W := Unit) (ν := Unit) beta U ())).det := by
    rw [denominators, hsum]
    exact hd'
  refine ⟨fun _ _ _ a b c d => beta ^ 2 * chi a b c d, U, hU1, hU2, hU3, hdet, by rw [hb2]; exact hd, fun h => hne ?_⟩
  have hdoc := C130_bse_documented (K := Unit) r1 h1 beta [((), ())] (List.nodup_singleton _)
    (fun (_ : Unit) (_ : Unit) (_ : Unit) a b c d => beta ^ 2 * chi a b c d) U () () (List.mem_singleton_self _) hdet
  rw [h, Rpa.solveRpaPH_apply r3 h3 _ (List.nodup_singleton _) _ _ _ (List.mem_singleton_self _), hb2, hsum] at hdoc
  exact hdoc

end Verif.Agree
