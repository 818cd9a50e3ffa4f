import Verif.Basis.Props
import Verif.Rpa.Props
import Verif.Bse.Props

/-!
# C104: change of basis for the random phase approximation, the screened interaction and the Bethe-Salpeter equation
-/

set_option linter.unusedSectionVars false

noncomputable section

namespace Verif.Basis

open Matrix Verif.Rpa Verif.Parallel

variable {o : Type*} [Fintype o] [DecidableEq o] {S : Matrix o o ℂ}

/-! ## Rotations of pairs -/

theorem pairMat_rotChi (T : Bubble.T4 o) :
    pairMat (rotChi S T) = kr (cj S) S * pairMat T * (kr (cj S) S).transpose := pairMat_rot4 _ _ _ _ T

theorem pairMat_rotV (T : Bubble.T4 o) :
    pairMat (rotV S T) = kr S (cj S) * pairMat T * (kr S (cj S)).transpose := pairMat_rot4 _ _ _ _ T

theorem pair_cancel1 (hS : Unitary S) : (kr (cj S) S).transpose * kr S (cj S) = 1 :=
  kr_cancel _ _ _ _ hS.cjT hS.tcj

theorem pair_cancel2 (hS : Unitary S) : (kr S (cj S)).transpose * kr (cj S) S = 1 :=
  kr_cancel _ _ _ _ hS.tcj hS.cjT

theorem pair_cancel3 (hS : Unitary S) : kr (cj S) S * (kr S (cj S)).transpose = 1 :=
  mul_eq_one_comm.mp (pair_cancel2 hS)

theorem pair_cancel4 (hS : Unitary S) : kr S (cj S) * (kr (cj S) S).transpose = 1 :=
  mul_eq_one_comm.mp (pair_cancel1 hS)

theorem inv_K (hS : Unitary S) : (kr (cj S) S)⁻¹ = (kr S (cj S)).transpose := Matrix.inv_eq_right_inv (pair_cancel3 hS)

theorem inv_Jt (hS : Unitary S) : ((kr S (cj S)).transpose)⁻¹ = kr (cj S) S := Matrix.inv_eq_right_inv (pair_cancel2 hS)

theorem denominator (hS : Unitary S) (X U : Bubble.T4 o) :
    1 - pairMat (rotChi S X) * pairMat (rotV S U)
      = kr (cj S) S * (1 - pairMat X * pairMat U) * (kr S (cj S)).transpose := by
  rw [pairMat_rotChi, pairMat_rotV, mul_sub, sub_mul, mul_one, pair_cancel3 hS]
  congr 1
  calc kr (cj S) S * pairMat X * (kr (cj S) S).transpose * (kr S (cj S) * pairMat U * (kr S (cj S)).transpose)
      = kr (cj S) S * pairMat X * ((kr (cj S) S).transpose * kr S (cj S)) * pairMat U * (kr S (cj S)).transpose := by
        simp only [Matrix.mul_assoc]
    _ = _ := by rw [pair_cancel1 hS, Matrix.mul_one]; simp only [Matrix.mul_assoc]

theorem denominator_inv (hS : Unitary S) (X U : Bubble.T4 o) :
    (1 - pairMat (rotChi S X) * pairMat (rotV S U))⁻¹
      = kr (cj S) S * (1 - pairMat X * pairMat U)⁻¹ * (kr S (cj S)).transpose := by
  rw [denominator hS, Matrix.mul_inv_rev, Matrix.mul_inv_rev, inv_K hS, inv_Jt hS, Matrix.mul_assoc]

/-! ## Random phase approximation -/

theorem rpaPoint_rot (hS : Unitary S) (X U : Bubble.T4 o) :
    rpaPoint (rotChi S X) (rotV S U) = rotChi S (rpaPoint X U) := by
  apply pairMat_injective
  rw [pairMat_rotChi, rpaPoint, pairMat_matTensor, denominator_inv hS, rpaPoint, pairMat_matTensor, pairMat_rotChi]
  calc kr (cj S) S * (1 - pairMat X * pairMat U)⁻¹ * (kr S (cj S)).transpose
        * (kr (cj S) S * pairMat X * (kr (cj S) S).transpose)
      = kr (cj S) S * (1 - pairMat X * pairMat U)⁻¹ * ((kr S (cj S)).transpose * kr (cj S) S) * pairMat X
        * (kr (cj S) S).transpose := by simp only [Matrix.mul_assoc]
    _ = _ := by rw [pair_cancel2 hS, Matrix.mul_one]; simp only [Matrix.mul_assoc]

/-- C104, partial: `solve_rpa_PH` is independent of the basis for an interaction that is rotated like the interaction of
the GW routines (`rotV`).  Missing: interactions of `get_rpa_tensor`, see `C104_rpa_iff` and `C104_rpa_violated`. -/
theorem C104_rpa_partial {P : Type*} [DecidableEq P] (hS : Unitary S) (ranks : ℕ) (mesh : List P) (chi0 : P → Bubble.T4 o)
    (U : Bubble.T4 o) (x : P) :
    solveRpaPH ranks mesh (fun p => rotChi S (chi0 p)) (rotV S U) x = rotChi S (solveRpaPH ranks mesh chi0 U x) := by
  unfold solveRpaPH
  simp only [rpaPoint_rot hS]
  exact distributedAssign_map (rot4L (cj S) S (cj S) S).toAddMonoidHom ranks mesh _ x

/-- two interactions give the same susceptibility exactly if they agree between two bubbles -/
theorem rpaPoint_eq_iff (X U V : Bubble.T4 o) (hU : IsUnit (1 - pairMat X * pairMat U).det)
    (hV : IsUnit (1 - pairMat X * pairMat V).det) :
    rpaPoint X U = rpaPoint X V ↔ pairMat X * pairMat U * pairMat X = pairMat X * pairMat V * pairMat X := by
  have hV' : IsUnit (1 - pairMat V * pairMat X).det := by rwa [← isUnit_det_comm]
  have h1 : rpaPoint X U = rpaPoint X V ↔ (1 - pairMat X * pairMat U)⁻¹ * pairMat X
      = pairMat X * (1 - pairMat V * pairMat X)⁻¹ := by
    rw [← push_through _ _ hV]
    exact ⟨fun h => congrArg pairMat h, fun h => pairMat_injective h⟩
  rw [h1]
  constructor
  · intro h
    have h2 : pairMat X * (1 - pairMat V * pairMat X) = (1 - pairMat X * pairMat U) * pairMat X := by
      have h3 := congrArg (fun M => (1 - pairMat X * pairMat U) * M * (1 - pairMat V * pairMat X)) h
      rw [← Matrix.mul_assoc, Matrix.mul_nonsing_inv _ hU, Matrix.one_mul, Matrix.mul_assoc, Matrix.mul_assoc,
        Matrix.nonsing_inv_mul _ hV', Matrix.mul_one] at h3
      exact h3
    rw [mul_sub, sub_mul, mul_one, one_mul, sub_right_inj] at h2
    rw [← h2, Matrix.mul_assoc]
  · intro h
    have h2 : (1 - pairMat X * pairMat U) * pairMat X = pairMat X * (1 - pairMat V * pairMat X) := by
      rw [mul_sub, sub_mul, mul_one, one_mul, sub_right_inj, ← Matrix.mul_assoc, h]
    have h3 := congrArg (fun M => (1 - pairMat X * pairMat U)⁻¹ * M * (1 - pairMat V * pairMat X)⁻¹) h2
    rw [← Matrix.mul_assoc, Matrix.nonsing_inv_mul _ hU, Matrix.one_mul, Matrix.mul_assoc (_⁻¹), Matrix.mul_assoc,
      Matrix.mul_nonsing_inv _ hV', Matrix.mul_one] at h3
    exact h3.symm

/-- C104: for an interaction that is rotated like `get_rpa_tensor` does (`rotChi`, see `C104_tensor`) the result of
`solve_rpa_PH` is the rotated one exactly if the two transformation rules agree between two bubbles. -/
theorem C104_rpa_iff (hS : Unitary S) (X U : Bubble.T4 o) (hU : IsUnit (1 - pairMat X * pairMat U).det)
    (hU' : IsUnit (1 - pairMat (rotChi S X) * pairMat (rotChi S U)).det) :
    rpaPoint (rotChi S X) (rotChi S U) = rotChi S (rpaPoint X U) ↔
      pairMat (rotChi S X) * pairMat (rotChi S U) * pairMat (rotChi S X)
        = pairMat (rotChi S X) * pairMat (rotV S U) * pairMat (rotChi S X) := by
  rw [← rpaPoint_rot hS]
  refine rpaPoint_eq_iff _ _ _ hU' ?_
  rw [denominator hS, Matrix.det_mul, Matrix.det_mul]
  have h3 : IsUnit ((kr (cj S) S).det) := Matrix.isUnit_det_of_right_inverse (pair_cancel3 hS)
  have h4 : IsUnit ((kr S (cj S)).transpose.det) := Matrix.isUnit_det_of_right_inverse (pair_cancel2 hS)
  exact (h3.mul hU).mul h4

theorem swapPairs_rotChi (U : Bubble.T4 o) : swapPairs (rotChi S U) = rotV S (swapPairs U) := by
  funext a b c d
  simp only [swapPairs, rotChi, rotV, rot4]
  rw [Finset.sum_comm]
  refine Finset.sum_congr rfl fun _ _ => Finset.sum_congr rfl fun _ _ => ?_
  rw [Finset.sum_comm]
  exact Finset.sum_congr rfl fun _ _ => Finset.sum_congr rfl fun _ _ => by ring

/-- C104: the python solver of `matrix_rpa.py`, with tensors in the order it documents, is independent of the basis for
interactions rotated like those of `get_rpa_tensor`. -/
theorem C104_matrix_rpa {m : ℕ} {S : Matrix (Fin m) (Fin m) ℂ} (hS : Unitary S) (ord : List ℕ → List ℕ)
    (hord : ∀ l, (ord l).Perm l) (chi0 U : Rpa.T4 (Fin m) ℂ) :
    chiRpaSpin ord (swapLast (rotChi S chi0)) (swapLast (rotChi S U))
      = swapLast (rotChi S (swapLast (chiRpaSpin ord (swapLast chi0) (swapLast U)))) ∧
    chiRpaCharge ord (swapLast (rotChi S chi0)) (swapLast (rotChi S U))
      = swapLast (rotChi S (swapLast (chiRpaCharge ord (swapLast chi0) (swapLast U)))) := by
  have key : ∀ V : Rpa.T4 (Fin m) ℂ, chiRpaSpin ord (swapLast (rotChi S chi0)) (swapLast (rotChi S V))
      = swapLast (rotChi S (swapLast (chiRpaSpin ord (swapLast chi0) (swapLast V)))) := by
    intro V
    rw [chiRpaSpin_eq m ord hord, chiRpaSpin_eq m ord hord, rpaPoint_swapLast, rpaPoint_swapLast, swapPairs_rotChi,
      rpaPoint_rot hS]
    rfl
  refine ⟨key U, ?_⟩
  rw [chiRpaCharge_eq, chiRpaCharge_eq]
  have hneg : (fun a b c d => -swapLast (rotChi S U) a b c d) = swapLast (rotChi S ((-1 : ℂ) • U)) := by
    have h : rotChi S ((-1 : ℂ) • U) = (-1 : ℂ) • rotChi S U := rot4_smul _ _ _ _ _ _
    rw [h]
    funext a b c d
    simp only [swapLast, Pi.smul_apply, smul_eq_mul, neg_mul, one_mul]
  have hneg' : (fun a b c d => -swapLast U a b c d) = swapLast ((-1 : ℂ) • U) := by
    funext a b c d
    simp [swapLast]
  rw [hneg, hneg']
  exact key _

/-! ## Screened interaction -/

theorem screenedBubblePoint_rot (hS : Unitary S) (X V : Bubble.T4 o) :
    screenedBubblePoint (rotChi S X) (rotV S V) = rotV S (screenedBubblePoint X V) := by
  apply pairMat_injective
  rw [pairMat_rotV, screenedBubblePoint, pairMat_matTensor, denominator_inv hS, screenedBubblePoint, pairMat_matTensor,
    pairMat_rotV]
  calc kr S (cj S) * pairMat V * (kr S (cj S)).transpose
        * (kr (cj S) S * (1 - pairMat X * pairMat V)⁻¹ * (kr S (cj S)).transpose)
      = kr S (cj S) * pairMat V * ((kr S (cj S)).transpose * kr (cj S) S) * (1 - pairMat X * pairMat V)⁻¹
        * (kr S (cj S)).transpose := by simp only [Matrix.mul_assoc]
    _ = _ := by rw [pair_cancel2 hS, Matrix.mul_one]; simp only [Matrix.mul_assoc]

theorem screenedGeneralizedPoint_rot (hS : Unitary S) (X V : Bubble.T4 o) :
    screenedGeneralizedPoint (rotChi S X) (rotV S V) = rotV S (screenedGeneralizedPoint X V) := by
  apply pairMat_injective
  rw [pairMat_rotV, screenedGeneralizedPoint, pairMat_matTensor, screenedGeneralizedPoint, pairMat_matTensor,
    pairMat_rotV, pairMat_rotChi]
  set K := kr (cj S) S with hK
  set J := kr S (cj S) with hJ
  have h1 : J.transpose * K = 1 := pair_cancel2 hS
  have h2 : K.transpose * J = 1 := pair_cancel1 hS
  calc J * pairMat V * J.transpose * (K * pairMat X * K.transpose) * (J * pairMat V * J.transpose)
        + J * pairMat V * J.transpose
      = J * pairMat V * (J.transpose * K) * pairMat X * (K.transpose * J) * pairMat V * J.transpose
        + J * pairMat V * J.transpose := by simp only [Matrix.mul_assoc]
    _ = _ := by rw [h1, h2, Matrix.mul_one, Matrix.mul_one, mul_add, add_mul]; simp only [Matrix.mul_assoc]

/-- the rotated interaction argument -/
def rotBare {W K : Type*} (S : Matrix o o ℂ) : Bare W K o ℂ → Bare W K o ℂ
  | .static v => .static fun k => rotV S (v k)
  | .dynamic v => .dynamic fun w k => rotV S (v w k)

/-- C104: the screened interaction, from the bubble (both implementations) and from a susceptibility. -/
theorem C104_screened {W K : Type*} [DecidableEq W] [DecidableEq K] (hS : Unitary S) (ranks : ℕ) (mesh : List (W × K))
    (kmesh vkmesh : List K) (chi : W × K → Bubble.T4 o) (V : Bare W K o ℂ) :
    screenedBubble ranks mesh kmesh vkmesh (fun x => rotChi S (chi x)) (rotBare S V)
      = (screenedBubble ranks mesh kmesh vkmesh chi V).map (fun f x => rotV S (f x)) ∧
    screenedGeneralized ranks mesh kmesh vkmesh (fun x => rotChi S (chi x)) (rotBare S V)
      = (screenedGeneralized ranks mesh kmesh vkmesh chi V).map (fun f x => rotV S (f x)) ∧
    ∀ v : K → Bubble.T4 o, screenedOpt ranks mesh kmesh vkmesh (fun x => rotChi S (chi x)) (fun k => rotV S (v k))
      = (screenedOpt ranks mesh kmesh vkmesh chi v).map (fun f x => rotV S (f x)) := by
  have hat : ∀ w k, (rotBare S V).at w k = rotV S (V.at w k) := by
    intro w k
    cases V <;> rfl
  have hd : ∀ f : W × K → Bubble.T4 o, distributedAssign ranks mesh (fun x => rotV S (f x))
      = fun x => rotV S (distributedAssign ranks mesh f x) := fun f => by
    funext x
    exact distributedAssign_map (rot4L S (cj S) S (cj S)).toAddMonoidHom ranks mesh f x
  refine ⟨?_, ?_, fun v => ?_⟩
  · unfold screenedBubble
    simp only [hat, screenedBubblePoint_rot hS]
    split_ifs
    · rfl
    · rw [hd]; rfl
  · unfold screenedGeneralized
    simp only [hat, screenedGeneralizedPoint_rot hS]
    split_ifs
    · rfl
    · rw [hd]; rfl
  · unfold screenedOpt
    simp only [C17_paths_agree, screenedBubblePoint_rot hS]
    split_ifs
    · rfl
    · rw [hd]; rfl

/-! ## Bethe-Salpeter equation -/

section bse

variable {ν : Type*} [Fintype ν] [DecidableEq ν]

/-- rotation of a function of two fermionic frequencies -/
def rot6 (S : Matrix o o ℂ) (T : Bse.T6 ν o ℂ) : Bse.T6 ν o ℂ := fun n n' => rotChi S (T n n')

/-- pair rotation for all frequencies -/
def krN (S : Matrix o o ℂ) : Matrix (ν × o × o) (ν × o × o) ℂ := fun r c =>
  if r.1 = c.1 then kr (cj S) S r.2 c.2 else 0

theorem krN_unitary (hS : Unitary S) : (krN S : Matrix (ν × o × o) (ν × o × o) ℂ).conjTranspose * krN S = 1 := by
  have h0 : (kr (cj S) S).conjTranspose * kr (cj S) S = 1 := by
    have : (kr (cj S) S).conjTranspose = (kr S (cj S)).transpose := by
      ext p q
      simp only [kr, cj, Matrix.conjTranspose_apply, Matrix.transpose_apply, Matrix.map_apply, star_mul',
        RCLike.star_def, Complex.conj_conj]
    rw [this]
    exact pair_cancel2 hS
  ext ⟨n, p⟩ ⟨m, q⟩
  have h1 : ∀ x : ν, (∑ y : o × o, star (krN S (x, y) (n, p)) * krN S (x, y) (m, q))
      = if x = n then (if n = m then ((kr (cj S) S).conjTranspose * kr (cj S) S) p q else 0) else 0 := by
    intro x
    simp only [krN]
    by_cases h : x = n
    · subst h
      by_cases h' : x = m
      · subst h'
        simp only [if_true, Matrix.mul_apply, Matrix.conjTranspose_apply]
      · simp [h']
    · simp [h]
  rw [Matrix.mul_apply, Fintype.sum_prod_type]
  simp only [Matrix.conjTranspose_apply]
  simp only [h1, Finset.sum_ite_eq', Finset.mem_univ, if_true, h0, Matrix.one_apply, Prod.mk.injEq]
  by_cases h : n = m <;> simp [h]

theorem chMat_rot6 (T : Bse.T6 ν o ℂ) :
    Bse.chMat .PH (rot6 S T) = krN S * Bse.chMat .PH T * (krN S).conjTranspose := by
  ext ⟨n, a, b⟩ ⟨m, d, c⟩
  have hr : ∀ (M : Matrix (ν × o × o) (ν × o × o) ℂ) (y : ν × o × o), ((krN S : Matrix (ν × o × o) (ν × o × o) ℂ) * M : Matrix (ν × o × o) (ν × o × o) ℂ) (n, a, b) y
      = ∑ p : o × o, kr (cj S) S (a, b) p * M (n, p) y := by
    intro M y
    rw [Matrix.mul_apply, Fintype.sum_prod_type, Finset.sum_eq_single n]
    · simp [krN]
    · intro x _ hx
      exact Finset.sum_eq_zero fun p _ => by simp [krN, hx.symm]
    · simp
  have hc : ∀ (M : Matrix (ν × o × o) (ν × o × o) ℂ) (x : ν × o × o), (M * (krN S : Matrix (ν × o × o) (ν × o × o) ℂ).conjTranspose : Matrix (ν × o × o) (ν × o × o) ℂ) x (m, d, c)
      = ∑ q : o × o, M x (m, q) * star (kr (cj S) S (d, c) q) := by
    intro M x
    rw [Matrix.mul_apply, Fintype.sum_prod_type, Finset.sum_eq_single m]
    · simp [krN, Matrix.conjTranspose_apply]
    · intro x _ hx
      exact Finset.sum_eq_zero fun p _ => by simp [krN, hx.symm, Matrix.conjTranspose_apply]
    · simp
  rw [hc]
  simp only [hr]
  simp only [Finset.sum_mul, Fintype.sum_prod_type, Bse.chMat, rot6, rotChi, rot4]
  rw [sum4_comm, Finset.sum_comm]
  refine Finset.sum_congr rfl fun _ _ => Finset.sum_congr rfl fun _ _ => Finset.sum_congr rfl fun _ _ =>
    Finset.sum_congr rfl fun _ _ => ?_
  simp only [kr, cj, Matrix.map_apply, star_mul', RCLike.star_def, Complex.conj_conj]
  ring

theorem inverse_rot (hS : Unitary S) (T : Bse.T6 ν o ℂ) :
    Bse.inverse .PH (rot6 S T) = rot6 S (Bse.inverse .PH T) := by
  apply Bse.chMat_injective .PH
  have h1 := krN_unitary (ν := ν) hS
  have h2 : krN S * (krN S : Matrix (ν × o × o) (ν × o × o) ℂ).conjTranspose = 1 := mul_eq_one_comm.mp h1
  rw [chMat_rot6, Bse.chMat_inverse, Bse.chMat_inverse, chMat_rot6, Matrix.mul_inv_rev, Matrix.mul_inv_rev,
    Matrix.inv_eq_right_inv h1, Matrix.inv_eq_right_inv h2, Matrix.mul_assoc]

theorem product_rot (hS : Unitary S) (A B : Bse.T6 ν o ℂ) :
    Bse.product .PH (rot6 S A) (rot6 S B) = rot6 S (Bse.product .PH A B) := by
  apply Bse.chMat_injective .PH
  rw [chMat_rot6, Bse.chMat_product, Bse.chMat_product, chMat_rot6, chMat_rot6]
  calc krN S * Bse.chMat .PH A * (krN S).conjTranspose * (krN S * Bse.chMat .PH B * (krN S).conjTranspose)
      = krN S * Bse.chMat .PH A * ((krN S).conjTranspose * krN S) * Bse.chMat .PH B * (krN S).conjTranspose := by
        simp only [Matrix.mul_assoc]
    _ = _ := by rw [krN_unitary hS, Matrix.mul_one]; simp only [Matrix.mul_assoc]

theorem rot6_sub (A B : Bse.T6 ν o ℂ) : rot6 S (A - B) = rot6 S A - rot6 S B := by
  funext n m
  exact map_sub (rot4L (cj S) S (cj S) S) (A n m) (B n m)

theorem identity_rot (hS : Unitary S) : rot6 S (Bse.identity .PH : Bse.T6 ν o ℂ) = Bse.identity .PH := by
  apply Bse.chMat_injective .PH
  have h1 : Bse.chMat .PH (Bse.identity .PH : Bse.T6 ν o ℂ) = 1 := rfl
  rw [chMat_rot6, h1, Matrix.mul_one]
  exact mul_eq_one_comm.mp (krN_unitary hS)

theorem bsePoint_rot (hS : Unitary S) (chi0 gamma : Bse.T6 ν o ℂ) :
    Bse.bsePoint (rot6 S chi0) (rot6 S gamma) = rot6 S (Bse.bsePoint chi0 gamma) := by
  unfold Bse.bsePoint
  rw [product_rot hS, ← identity_rot hS, ← rot6_sub, inverse_rot hS, product_rot hS, identity_rot hS]

theorem diagEmbed_rot (chi0 : ν → Bubble.T4 o) :
    Bse.diagEmbed (fun n => rotChi S (chi0 n)) = rot6 S (Bse.diagEmbed chi0) := by
  funext n m
  simp only [Bse.diagEmbed, rot6]
  split_ifs
  · rfl
  · exact (map_zero (rot4L (cj S) S (cj S) S)).symm

theorem traceNu_rot (beta : ℂ) (chi : Bse.T6 ν o ℂ) :
    Bse.traceNu beta (rot6 S chi) = rotChi S (Bse.traceNu beta chi) := by
  have h : Bse.traceNu beta chi = (beta * beta)⁻¹ • ∑ n1, ∑ n2, chi n1 n2 := by
    funext a b c d
    simp only [Bse.traceNu, Pi.smul_apply, Finset.sum_apply, smul_eq_mul, div_eq_inv_mul]
  have h' : Bse.traceNu beta (rot6 S chi) = (beta * beta)⁻¹ • ∑ n1, ∑ n2, rotChi S (chi n1 n2) := by
    funext a b c d
    simp only [Bse.traceNu, Pi.smul_apply, Finset.sum_apply, smul_eq_mul, div_eq_inv_mul, rot6]
  rw [h, h', rotChi_eq_map, map_smul, map_sum]
  simp only [map_sum]
  rfl

variable {W K : Type*} [DecidableEq W] [DecidableEq K]

/-- C104: the impurity vertex and the lattice Bethe-Salpeter equation (all frequencies and momenta, plain and summed). -/
theorem C104_bse (hS : Unitary S) (ranks : ℕ) (beta : ℂ) (mesh : List (K × W)) (chi0imp chi : W → Bse.T6 ν o ℂ)
    (chi0 : W → ν → K → Bubble.T4 o) (gamma : W → Bse.T6 ν o ℂ) (k : K) (w : W) :
    Bse.solveLocalBse (fun w => rot6 S (chi0imp w)) (fun w => rot6 S (chi w)) w
      = rot6 S (Bse.solveLocalBse chi0imp chi w) ∧
    Bse.chiqFromChi0qAndGamma (fun w n k => rotChi S (chi0 w n k)) (fun w => rot6 S (gamma w)) k w
      = rot6 S (Bse.chiqFromChi0qAndGamma chi0 gamma k w) ∧
    Bse.chiqSumNuFromChi0qAndGamma ranks beta mesh (fun w n k => rotChi S (chi0 w n k)) (fun w => rot6 S (gamma w)) (k, w)
      = rotChi S (Bse.chiqSumNuFromChi0qAndGamma ranks beta mesh chi0 gamma (k, w)) := by
  refine ⟨?_, ?_, ?_⟩
  · simp only [Bse.solveLocalBse, Bse.inverseIw, inverse_rot hS, rot6_sub]
  · simp only [Bse.chiqFromChi0qAndGamma, diagEmbed_rot, bsePoint_rot hS]
  · unfold Bse.chiqSumNuFromChi0qAndGamma
    simp only [diagEmbed_rot, bsePoint_rot hS, traceNu_rot]
    exact distributedAssign_map (rot4L (cj S) S (cj S) S).toAddMonoidHom ranks mesh _ (k, w)

/-- C104: the reducible impurity vertex used by the dual equation. -/
theorem C104_vertex_F (hS : Unitary S) (chi0 chi : W → Bse.T6 ν o ℂ) (w : W) :
    Bse.reducibleVertexF (fun w => rot6 S (chi0 w)) (fun w => rot6 S (chi w)) w
      = rot6 S (Bse.reducibleVertexF chi0 chi w) := by
  simp only [Bse.reducibleVertexF, Bse.inverseIw, Bse.productIw, inverse_rot hS, ← rot6_sub, product_rot hS]

end bse

end Verif.Basis
