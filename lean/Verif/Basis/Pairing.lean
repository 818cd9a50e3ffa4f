import Verif.Basis.Interactions
import Verif.Eliashberg.Model

/-!
# C104: change of basis for the linearised Eliashberg equation
-/

set_option linter.unusedSectionVars false

noncomputable section

namespace Verif.Basis

open Matrix Verif.Fourier Verif.Bubble Verif.Parallel Verif.Eliashberg

variable {o : Type*} [Fintype o] [DecidableEq o] {d : ℕ} {n : Fin d → ℕ} [∀ i, NeZero (n i)] {S : Matrix o o ℂ}

theorem gdgPoint_rot (hS : Unitary S) (g gm delta : o → o → ℂ) :
    gdgPoint (rotG S g) (rotG S gm) (rotGap S delta) = rotGap S (gdgPoint g gm delta) := by
  -- as matrices: `F = conj(gm)ᵀ Δ gᵀ`
  have hm : ∀ x y z : Matrix o o ℂ, gdgPoint x y z = yᴴ * z * xᵀ := by
    intro x y z
    ext a b
    simp only [gdgPoint, Matrix.mul_apply, Matrix.conjTranspose_apply, Matrix.transpose_apply, Finset.sum_mul]
    rw [Finset.sum_comm]
    exact Finset.sum_congr rfl fun _ _ => Finset.sum_congr rfl fun _ _ => by rw [RCLike.star_def]; ring
  have hg : ∀ x : Matrix o o ℂ, (rotGap S x : Matrix o o ℂ) = S * x * Sᵀ := by
    intro x
    ext a b
    simp only [rotGap, rot2, Matrix.mul_apply, Matrix.transpose_apply, Finset.sum_mul]
    rw [Finset.sum_comm]
    exact Finset.sum_congr rfl fun _ _ => Finset.sum_congr rfl fun _ _ => by ring
  have main : ∀ g gm delta : Matrix o o ℂ,
      gdgPoint (rotG S g) (rotG S gm) (rotGap S delta) = rotGap S (gdgPoint g gm delta) := by
    intro g gm delta
    have h1 : gdgPoint (rotG S g) (rotG S gm) (rotGap S delta) = (rotG S gm)ᴴ * (S * delta * Sᵀ) * (rotG S g)ᵀ := by
      rw [← hg]
      exact hm _ _ _
    have h2 : rotGap S (gdgPoint g gm delta) = S * (gmᴴ * delta * gᵀ) * Sᵀ := by
      rw [← hg]
      congr 1
      exact hm g gm delta
    rw [h1, h2, rotG_eq, rotG_eq]
    simp only [Matrix.conjTranspose_mul, Matrix.transpose_mul, Matrix.conjTranspose_conjTranspose]
    have hsym : Sᵀ * Sᴴᵀ = 1 := by rw [← Matrix.transpose_mul, hS.left, Matrix.transpose_one]
    calc S * (gmᴴ * Sᴴ) * (S * delta * Sᵀ) * (Sᴴᵀ * (gᵀ * Sᵀ))
        = S * gmᴴ * (Sᴴ * S) * delta * (Sᵀ * Sᴴᵀ) * gᵀ * Sᵀ := by simp only [Matrix.mul_assoc]
      _ = S * (gmᴴ * delta * gᵀ) * Sᵀ := by
          rw [hS.left, hsym, Matrix.mul_one, Matrix.mul_one]; simp only [Matrix.mul_assoc]
  exact main g gm delta

theorem gammaF_rot (hS : Unitary S) (gamma : Bubble.T4 o) (F : o → o → ℂ) :
    gammaF (rotChi S gamma) (rotGap S F) = rotGap S (gammaF gamma F) := by
  -- reorder the indices `(c, a, d, b)` to `(a, b, c, d)`
  have hre : (fun a b c d => rotChi S gamma c a d b) = rot4 S S (cj S) (cj S) fun a b c d => gamma c a d b := by
    funext a b c d
    simp only [rotChi, rot4]
    calc ∑ c', ∑ a', ∑ d', ∑ b', cj S c c' * S a a' * cj S d d' * S b b' * gamma c' a' d' b'
        = ∑ a', ∑ c', ∑ b', ∑ d', cj S c c' * S a a' * cj S d d' * S b b' * gamma c' a' d' b' := by
          rw [Finset.sum_comm]
          exact Finset.sum_congr rfl fun _ _ => Finset.sum_congr rfl fun _ _ => Finset.sum_comm
      _ = ∑ a', ∑ b', ∑ c', ∑ d', S a a' * S b b' * cj S c c' * cj S d d' * gamma c' a' d' b' := by
          refine Finset.sum_congr rfl fun _ _ => ?_
          rw [Finset.sum_comm]
          exact Finset.sum_congr rfl fun _ _ => Finset.sum_congr rfl fun _ _ => Finset.sum_congr rfl fun _ _ => by ring
  have h1 := contract_rot S S (cj S) (cj S) S S hS.cjT hS.cjT ((-(1 / 2) : ℂ) • fun a b c d => gamma c a d b)
    (fun c d => F d c)
  rw [rot4_smul, ← hre, ← rot2_transpose] at h1
  have h2 : contract ((-(1 / 2) : ℂ) • fun a b c d => gamma c a d b) (fun c d => F d c) = gammaF gamma F := by
    funext a b
    simp only [contract, gammaF, Pi.smul_apply, smul_eq_mul]
  rw [h2] at h1
  refine Eq.trans ?_ h1
  funext a b
  simp only [contract, gammaF, Pi.smul_apply, smul_eq_mul]
  rfl

/-- rotation of a function of frequency and momentum -/
def rotGapW {W : Type*} (S : Matrix o o ℂ) (x : W → Lat n → o → o → ℂ) : W → Lat n → o → o → ℂ :=
  fun w k => rotGap S (x w k)

theorem assign_rotGap {P : Type*} [DecidableEq P] (ranks : ℕ) (mesh : List P) (f : P → o → o → ℂ) :
    distributedAssign ranks mesh (fun x => rotGap S (f x)) = fun x => rotGap S (distributedAssign ranks mesh f x) :=
  funext fun x => distributedAssign_map (rot2L S S).toAddMonoidHom ranks mesh f x

theorem gDeltaG_rot (hS : Unitary S) (ranks N Ng : ℕ) (lat : List (Lat n)) (g delta : ℤ → Lat n → o → o → ℂ) :
    gDeltaG ranks N Ng lat (fun w k => rotG S (g w k)) (rotGapW S delta)
      = (gDeltaG ranks N Ng lat g delta).map fun F x => rotGap S (F x) := by
  unfold gDeltaG
  simp only [rotGapW, gdgPoint_rot hS]
  split_ifs
  · rfl
  · exact congrArg Except.ok (assign_rotGap ranks (gapMesh N lat) fun p =>
      gdgPoint (g p.1 p.2) (g p.1 (-p.2)) (delta p.1 p.2))

/-- C104: the product of the linearised Eliashberg equation with the explicit sum over frequencies and momenta. -/
theorem C104_eliashberg (hS : Unitary S) (ranks N Ng NG : ℕ) (beta : ℝ) (lat : List (Lat n)) (gamma : ℤ → Lat n → Bubble.T4 o)
    (g delta : ℤ → Lat n → o → o → ℂ) :
    eliashbergProduct ranks N Ng NG beta lat (fun w k => rotChi S (gamma w k)) (fun w k => rotG S (g w k)) (rotGapW S delta)
      = (eliashbergProduct ranks N Ng NG beta lat gamma g delta).map (rotGapW S) := by
  unfold eliashbergProduct
  split_ifs with h
  · rfl
  rw [gDeltaG_rot hS]
  cases gDeltaG ranks N Ng lat g delta with
  | error e => rfl
  | ok F =>
    simp only [Except.map]
    congr 1
    funext w k
    let L : (ℤ → o → o → ℂ) →+ (ℤ → o → o → ℂ) :=
      { toFun := fun f w => rot2L S S (f w)
        map_zero' := by funext w; exact map_zero _
        map_add' := fun f g => by funext w; exact map_add _ _ _ }
    have h1 := distributedAssign_map L ranks lat (fun k w a b =>
        ((gapMesh N lat).map fun p => gammaF (gamma (w - p.1) (k - p.2)) (F p) a b).sum / ((beta : ℂ) * lat.length)) k
    have h2 : (fun (k : Lat n) (w : ℤ) a b => ((gapMesh N lat).map fun p =>
          gammaF (rotChi S (gamma (w - p.1) (k - p.2))) (rotGap S (F p)) a b).sum / ((beta : ℂ) * lat.length))
        = fun k => L fun w a b =>
          ((gapMesh N lat).map fun p => gammaF (gamma (w - p.1) (k - p.2)) (F p) a b).sum / ((beta : ℂ) * lat.length) := by
      have hsum : ∀ (l : List (ℤ × Lat n)) (f : ℤ × Lat n → o → o → ℂ) (z : ℂ),
          (fun a b => (l.map fun p => f p a b).sum / z) = z⁻¹ • (l.map f).sum := by
        intro l f z
        induction l with
        | nil => funext a b; simp
        | cons x l ih =>
          rw [List.map_cons, List.sum_cons, smul_add, ← ih]
          funext a b
          simp only [List.map_cons, List.sum_cons, Pi.add_apply, Pi.smul_apply, smul_eq_mul]
          rw [add_div, div_eq_inv_mul]
      funext k w
      change _ = rot2L S S fun a b => _
      rw [hsum, hsum, map_smul, map_list_sum, List.map_map]
      congr 2
      refine List.map_congr_left fun p _ => ?_
      exact gammaF_rot hS _ _
    rw [h2, h1]
    rfl

/-- C104: the products with Fourier transforms, with and without dynamic vertex, for linear transforms. -/
theorem C104_eliashberg_fft (hS : Unitary S) (ranks N Ng L LG : ℕ) (T : Transforms) (h1 : IsLinearMap ℂ T.toTau)
    (h2 : IsLinearMap ℂ T.toFreq) (lat : List (Lat n)) (gammaDyn : ℕ → Lat n → Bubble.T4 o)
    (gammaConst : Lat n → Bubble.T4 o) (g delta : ℤ → Lat n → o → o → ℂ) :
    eliashbergProductFFT ranks N Ng L LG T lat (fun t r => rotChi S (gammaDyn t r)) (fun r => rotChi S (gammaConst r))
        (fun w k => rotG S (g w k)) (rotGapW S delta)
      = (eliashbergProductFFT ranks N Ng L LG T lat gammaDyn gammaConst g delta).map (rotGapW S) ∧
    eliashbergProductFFTConst ranks N Ng T lat (fun r => rotChi S (gammaConst r)) (fun w k => rotG S (g w k))
        (rotGapW S delta)
      = (eliashbergProductFFTConst ranks N Ng T lat gammaConst g delta).map (rotGapW S) := by
  have hF : ∀ F : ℤ × Lat n → o → o → ℂ, fTr T (fun x => rotGap S (F x)) = fun t r => rotGap S (fTr T F t r) := by
    intro F
    funext t r a b
    have e1 : ∀ w, kToR (fun k => rotGap S (F (w, k))) r = rotGap S (kToR (fun k => F (w, k)) r) := fun w =>
      kToR_map (rot2L S S) (fun k => F (w, k)) r
    unfold fTr
    simp only [e1]
    exact rot2_pointwise S S ((LinearMap.proj t).comp (h1.mk' _)) (fun w => kToR (fun k => F (w, k)) r) a b
  have hc : ∀ F : ℕ → Lat n → o → o → ℂ, constantGammaF (fun r => rotChi S (gammaConst r)) (fun t r => rotGap S (F t r))
      = fun r => rotGap S (constantGammaF gammaConst F r) := fun F => funext fun r => gammaF_rot hS _ _
  constructor
  · unfold eliashbergProductFFT
    rw [gDeltaG_rot hS]
    cases gDeltaG ranks N Ng lat g delta with
    | error e => rfl
    | ok F =>
      simp only [Except.map, hF, hc]
      unfold dynamicGammaF
      simp only [gammaF_rot hS]
      by_cases hL : L + 1 ≠ LG + 1
      · simp only [if_pos hL]
      · simp only [if_neg hL]
        congr 1
        funext w
        rw [assign_rotGap]
        set dyn := distributedAssign ranks ((List.range (L + 1)).product lat) fun p : ℕ × Lat n =>
          gammaF (gammaDyn p.1 p.2) (fTr T F p.1 p.2)
        set co := constantGammaF gammaConst (fTr T F)
        have e3 : (fun r (a b : o) => T.toFreq (fun t => rotGap S (dyn (t, r)) a b) w + rotGap S (co r) a b)
            = fun r => rot2L S S fun a b => T.toFreq (fun t => dyn (t, r) a b) w + co r a b := by
          funext r a b
          have e4 := rot2_pointwise S S ((LinearMap.proj w).comp (h2.mk' _)) (fun t => dyn (t, r)) a b
          have e5 := congrFun (congrFun (rot2_add S S (fun a b => T.toFreq (fun t => dyn (t, r) a b) w) (co r)) a) b
          refine Eq.trans ?_ e5.symm
          rw [Pi.add_apply, Pi.add_apply]
          congr 1
        rw [e3]
        funext k
        exact rToK_map (rot2L S S) _ k
  · unfold eliashbergProductFFTConst
    rw [gDeltaG_rot hS]
    cases gDeltaG ranks N Ng lat g delta with
    | error e => rfl
    | ok F =>
      simp only [Except.map, hF, hc]
      congr 1
      funext w k
      exact rToK_map (rot2L S S) _ k

/-! ## Vertex -/

theorem phiPoint_rot (hS : Unitary S) (chi U : Bubble.T4 o) :
    phiPoint (rotChi S chi) (rotV S U) = rotV S (phiPoint chi U) := by
  apply Rpa.pairMat_injective
  rw [pairMat_rotV, phiPoint, Rpa.pairMat_matTensor, phiPoint, Rpa.pairMat_matTensor, pairMat_rotV, pairMat_rotChi]
  set K := kr (cj S) S
  set J := kr S (cj S)
  have h1 : J.transpose * K = 1 := pair_cancel2 hS
  have h2 : K.transpose * J = 1 := pair_cancel1 hS
  calc J * Rpa.pairMat U * Jᵀ * (K * Rpa.pairMat chi * Kᵀ) * (J * Rpa.pairMat U * Jᵀ)
      = J * Rpa.pairMat U * (Jᵀ * K) * Rpa.pairMat chi * (Kᵀ * J) * Rpa.pairMat U * Jᵀ := by simp only [Matrix.mul_assoc]
    _ = _ := by rw [h1, h2, Matrix.mul_one, Matrix.mul_one]; simp only [Matrix.mul_assoc]

/-- complex conjugation exchanges the two rules, and the transposition of the code keeps them -/
theorem conj_swap_rotV (P : Bubble.T4 o) :
    (fun a b c d => (starRingEnd ℂ) (rotV S P c b a d)) = rotChi S fun a b c d => (starRingEnd ℂ) (P c b a d) := by
  funext a b c d
  simp only [rotV, rotChi, rot4, map_sum, map_mul]
  calc ∑ c', ∑ b', ∑ a', ∑ d', (starRingEnd ℂ) (S c c') * (starRingEnd ℂ) (cj S b b') * (starRingEnd ℂ) (S a a')
        * (starRingEnd ℂ) (cj S d d') * (starRingEnd ℂ) (P c' b' a' d')
      = ∑ c', ∑ a', ∑ b', ∑ d', (starRingEnd ℂ) (S c c') * (starRingEnd ℂ) (cj S b b') * (starRingEnd ℂ) (S a a')
        * (starRingEnd ℂ) (cj S d d') * (starRingEnd ℂ) (P c' b' a' d') :=
        Finset.sum_congr rfl fun _ _ => Finset.sum_comm
    _ = ∑ a', ∑ c', ∑ b', ∑ d', (starRingEnd ℂ) (S c c') * (starRingEnd ℂ) (cj S b b') * (starRingEnd ℂ) (S a a')
        * (starRingEnd ℂ) (cj S d d') * (starRingEnd ℂ) (P c' b' a' d') := Finset.sum_comm
    _ = ∑ a', ∑ b', ∑ c', ∑ d', cj S a a' * S b b' * cj S c c' * S d d' * (starRingEnd ℂ) (P c' b' a' d') := by
        refine Finset.sum_congr rfl fun _ _ => ?_
        rw [Finset.sum_comm]
        refine Finset.sum_congr rfl fun _ _ => Finset.sum_congr rfl fun _ _ => Finset.sum_congr rfl fun _ _ => ?_
        simp only [cj, Matrix.map_apply, Complex.conj_conj]
        ring

/-- C104: the pairing vertex built from correctly rotated interactions and susceptibilities is the rotated vertex exactly
if the bare interaction in it has the same form for both transformation rules.  The ladder part is complex conjugated
and therefore follows the rule of susceptibilities, the bare part is not. -/
theorem C104_vertex_iff (hS : Unitary S) (Ud Um chid chim : Bubble.T4 o) :
    (gammaSinglet (rotV S Ud) (rotV S Um) (phiPoint (rotChi S chid) (rotV S Ud)) (phiPoint (rotChi S chim) (rotV S Um))
        = rotChi S (gammaSinglet Ud Um (phiPoint chid Ud) (phiPoint chim Um)) ↔
      rotV S ((1 / 2 : ℂ) • Ud + (3 / 2 : ℂ) • Um) = rotChi S ((1 / 2 : ℂ) • Ud + (3 / 2 : ℂ) • Um)) ∧
    (gammaTriplet (rotV S Ud) (rotV S Um) (phiPoint (rotChi S chid) (rotV S Ud)) (phiPoint (rotChi S chim) (rotV S Um))
        = rotChi S (gammaTriplet Ud Um (phiPoint chid Ud) (phiPoint chim Um)) ↔
      rotV S ((-(1 / 2) : ℂ) • Ud + (1 / 2 : ℂ) • Um) = rotChi S ((-(1 / 2) : ℂ) • Ud + (1 / 2 : ℂ) • Um)) := by
  rw [phiPoint_rot hS, phiPoint_rot hS]
  set pd := phiPoint chid Ud
  set pm := phiPoint chim Um
  have key : ∀ (x y u v : ℂ),
      ((fun a b c d => (x * (starRingEnd ℂ) (rotV S pm c b a d) + y * (starRingEnd ℂ) (rotV S pd c b a d))
          + (u * rotV S Ud a b c d + v * rotV S Um a b c d))
        = rotChi S (fun a b c d => (x * (starRingEnd ℂ) (pm c b a d) + y * (starRingEnd ℂ) (pd c b a d))
          + (u * Ud a b c d + v * Um a b c d)) ↔
      rotV S (u • Ud + v • Um) = rotChi S (u • Ud + v • Um)) := by
    intro x y u v
    have e1 : (fun a b c d => (x * (starRingEnd ℂ) (rotV S pm c b a d) + y * (starRingEnd ℂ) (rotV S pd c b a d))
          + (u * rotV S Ud a b c d + v * rotV S Um a b c d))
        = (x • (fun a b c d => (starRingEnd ℂ) (rotV S pm c b a d)) + y • fun a b c d => (starRingEnd ℂ) (rotV S pd c b a d))
          + rotV S (u • Ud + v • Um) := by
      have e0 : rotV S (u • Ud + v • Um) = u • rotV S Ud + v • rotV S Um := by
        change rot4L S (cj S) S (cj S) _ = _
        rw [map_add, map_smul, map_smul]
        rfl
      rw [e0]
      rfl
    have e2 : rotChi S (fun a b c d => (x * (starRingEnd ℂ) (pm c b a d) + y * (starRingEnd ℂ) (pd c b a d))
          + (u * Ud a b c d + v * Um a b c d))
        = (x • rotChi S (fun a b c d => (starRingEnd ℂ) (pm c b a d)) + y • rotChi S fun a b c d => (starRingEnd ℂ) (pd c b a d))
          + rotChi S (u • Ud + v • Um) := by
      change rot4L (cj S) S (cj S) S ((x • (fun a b c d => (starRingEnd ℂ) (pm c b a d))
        + y • fun a b c d => (starRingEnd ℂ) (pd c b a d)) + (u • Ud + v • Um)) = _
      rw [map_add, map_add, map_smul, map_smul]
      rfl
    rw [e1, e2, conj_swap_rotV, conj_swap_rotV, add_right_inj]
  constructor
  · have h := key 3 1 (1 / 2) (3 / 2)
    simp only [one_mul] at h
    exact h
  · have h := key (-1) (-1) (-(1 / 2)) (1 / 2)
    simp only [neg_mul, one_mul, ← sub_eq_add_neg] at h
    simp only [gammaTriplet, neg_mul]
    exact h

end Verif.Basis
