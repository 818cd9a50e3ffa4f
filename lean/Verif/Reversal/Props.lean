import Verif.Mirror.Props

/-!
# C131: reversal of motion

The reversal of motion takes a Hamiltonian to the one in which everything moves backwards: `e(k) → e(-k)ᵀ`, `Σ(ν, k) → Σ(ν, -k)ᵀ`,
`U_{abcd} → U_{dcba}`.  Every correlation function has to be read backwards, `G(ν, k)_{ab} → G(ν, -k)_{ba}`,
`χ(ω, q)_{abcd} → χ(ω, -q)_{dcba}`; chemical potential, temperature, frequencies and the broadening stay.  A model that is its own
reversal (no magnetic field, no order of currents or of spins) then has functions that can be read in both directions.
-/

noncomputable section

namespace Verif.Reversal

set_option linter.unusedSectionVars false

open Complex Matrix Verif.Parallel Verif.Fourier Verif.Bubble Verif.Gw Verif.Lindhard

/-- a response function or an interaction, read backwards -/
def rev4 {o F : Type*} (t : o → o → o → o → F) : o → o → o → o → F := fun a b c d => t d c b a

theorem rev4_rev4 {o F : Type*} (t : o → o → o → o → F) : rev4 (rev4 t) = t := rfl

/-! ## Green's functions -/

section Dyson

open Verif.Dyson

variable {F : Type*} [Field F] {m : Type*} [Fintype m] [DecidableEq m] {W K : Type*} [DecidableEq W] [DecidableEq K]

/-- the reversed dispersion; `nk` is `k → -k` -/
def revE (nk : K → K) (e : K → Matrix m m F) : K → Matrix m m F := fun k => (e (nk k))ᵀ

/-- the reversed self energy -/
def revSigma (nk : K → K) : Sigma W K m F → Sigma W K m F
  | .local s => .local fun w => (s w)ᵀ
  | .lattice s => .lattice fun w k => (s w (nk k))ᵀ

theorem revSigma_term (nk : K → K) (σ : Sigma W K m F) (w : W) (k : K) :
    (revSigma nk σ).term w k = (σ.term w (nk k))ᵀ := by
  cases σ <;> rfl

theorem rev_inv (z : F) (E S : Matrix m m F) :
    (z • (1 : Matrix m m F) - Eᵀ - Sᵀ)⁻¹ = ((z • (1 : Matrix m m F) - E - S)⁻¹)ᵀ := by
  rw [Matrix.transpose_nonsing_inv, Matrix.transpose_sub, Matrix.transpose_sub, Matrix.transpose_smul, Matrix.transpose_one]

variable {nk : K → K}

/-- C131: the lattice Green's functions of the reversed model, at the same frequency, chemical potential and broadening: a retarded
function stays retarded. -/
theorem C131_dyson {ranks : ℕ} (hr : 0 < ranks) (mu : F) (val : W → F) {wmesh : List W}
    {kmesh : List K} (hm : (prodMesh wmesh kmesh).Nodup) (hk : ∀ k, nk k ∈ kmesh ↔ k ∈ kmesh)
    (e : K → Matrix m m F) (sigma : Sigma W K m F) (idelta : F) (w : W) (k : K) :
    latticeDysonG0Xk ranks mu val wmesh kmesh (revE nk e) (w, k)
        = (latticeDysonG0Xk ranks mu val wmesh kmesh e (w, nk k))ᵀ ∧
      latticeDysonGXk ranks mu val wmesh kmesh (revE nk e) (revSigma nk sigma) idelta (w, k)
        = (latticeDysonGXk ranks mu val wmesh kmesh e sigma idelta (w, nk k))ᵀ := by
  have hmem : (w, nk k) ∈ prodMesh wmesh kmesh ↔ (w, k) ∈ prodMesh wmesh kmesh := by
    simp only [prodMesh, List.mem_flatMap, List.mem_map, Prod.mk.injEq, exists_eq_right_right]
    rw [hk]
  constructor
  · unfold latticeDysonG0Xk
    rw [C02_distributedAssign ranks hr _ hm, C02_distributedAssign ranks hr _ hm]
    by_cases h : (w, k) ∈ prodMesh wmesh kmesh
    · rw [if_pos h, if_pos (hmem.2 h)]
      have h1 := rev_inv (val w + mu) (e (nk k)) 0
      rw [Matrix.transpose_zero, sub_zero, sub_zero] at h1
      exact h1
    · rw [if_neg h, if_neg fun h' => h (hmem.1 h'), Matrix.transpose_zero]
  · unfold latticeDysonGXk
    rw [C02_distributedAssign ranks hr _ hm, C02_distributedAssign ranks hr _ hm]
    by_cases h : (w, k) ∈ prodMesh wmesh kmesh
    · rw [if_pos h, if_pos (hmem.2 h)]
      dsimp only
      rw [revSigma_term]
      exact rev_inv _ _ _
    · rw [if_neg h, if_neg fun h' => h (hmem.1 h'), Matrix.transpose_zero]

/-- C131: the local Green's function of the reversed model. -/
theorem C131_dyson_local {ranks : ℕ} (hr : 0 < ranks) (mu : F) (val : W → F) (wmesh : List W)
    {kmesh : List K} (hk : (kmesh.map nk).Perm kmesh)
    (e : K → Matrix m m F) (sigma : Sigma W K m F) (idelta : F) (w : W) :
    latticeDysonGX ranks mu val wmesh kmesh (revE nk e) (revSigma nk sigma) idelta w
      = (latticeDysonGX ranks mu val wmesh kmesh e sigma idelta w)ᵀ := by
  unfold latticeDysonGX
  rw [C02_distributedAccumulate ranks hr, C02_distributedAccumulate ranks hr, Matrix.transpose_smul]
  congr 1
  rw [← (hk.map fun k => if w ∈ wmesh then ((val w + idelta + mu) • (1 : Matrix m m F) - e k - sigma.term w k)⁻¹
    else 0).sum_eq, List.map_map]
  have hs : ∀ (l : List K) (f : K → Matrix m m F), ((l.map f).sum)ᵀ = (l.map fun k => (f k)ᵀ).sum := by
    intro l f
    induction l with
    | nil => simp
    | cons x l ih => rw [List.map_cons, List.sum_cons, List.map_cons, List.sum_cons, ← ih, Matrix.transpose_add]
  rw [hs]
  congr 1
  refine List.map_congr_left fun k _ => ?_
  simp only [Function.comp]
  by_cases h : w ∈ wmesh
  · rw [if_pos h, if_pos h, revSigma_term]
    exact rev_inv _ _ _
  · rw [if_neg h, if_neg h, Matrix.transpose_zero]

end Dyson

/-! ## Bubbles -/

variable {dm : ℕ} {n : Fin dm → ℕ} [∀ i, NeZero (n i)] {o : Type*} [Fintype o] [DecidableEq o]

/-- the reversed Green's function, in momentum or in real space, of Matsubara frequency or of imaginary time -/
def revG {T : Type*} (g : T → Lat n → o → o → ℂ) : T → Lat n → o → o → ℂ := fun w k a b => g w (-k) b a

/-- the transform between momentum and real space keeps the relation -/
theorem C131_transform (g : G n o) (w : ℤ) (r : Lat n) :
    kToR (revG g w) r = revG (fun w => kToR (g w)) w r := by
  funext a b
  change _ = kToR (g w) (-r) b a
  rw [Supercell.kToR_entry2, Supercell.kToR_entry2, ← Supercell.kToR_flip (fun k => g w k b a) r]
  rfl

/-- C131: the bubble of the reversed model, from the Green's function in momentum space, from dispersion and self energy, and from the
Green's function in real space, frequency by frequency and on every window. -/
theorem C131_bubble {ranks : ℕ} (hr : 0 < ranks) (beta : ℂ) {rmesh : List (Lat n)} (hc : Complete rmesh) (g : G n o) (w nu : ℤ) :
    (∀ q, chi0nFromGwk beta (revG g) w q nu = rev4 (chi0nFromGwk beta g w (-q) nu)) ∧
      (∀ mu iv (e : Lat n → Matrix o o ℂ) (sigma : ℤ → Matrix o o ℂ) q,
        chi0nFromEkSigma beta mu iv (revE Neg.neg e) (fun w => (sigma w)ᵀ) w q nu
          = rev4 (chi0nFromEkSigma beta mu iv e sigma w (-q) nu)) ∧
      ∀ r, chi0rFromGr ranks beta rmesh (revG g) r w nu = rev4 (chi0rFromGr ranks beta rmesh g (-r) w nu) := by
  refine ⟨fun q => ?_, fun mu iv e sigma q => ?_, fun r => ?_⟩
  · funext a b c d
    simp only [chi0nFromGwk, rev4, revG]
    congr 1
    rw [← Equiv.sum_comp (Equiv.neg (Lat n)) fun k => -(g nu k a d * g (nu + w) (k - -q) c b)]
    refine Finset.sum_congr rfl fun k _ => ?_
    rw [Equiv.neg_apply, show -(k - q) = -k - -q by abel]
  · funext a b c d
    simp only [chi0nFromEkSigma, rev4, revE]
    congr 1
    rw [← Equiv.sum_comp (Equiv.neg (Lat n)) fun k => -(((iv nu + mu) • (1 : Matrix o o ℂ) - e k - sigma nu)⁻¹ a d
      * ((iv nu + mu) • (1 : Matrix o o ℂ) - e (k - -q) - sigma (nu + w))⁻¹ c b)]
    refine Finset.sum_congr rfl fun k _ => ?_
    rw [Equiv.neg_apply, rev_inv, rev_inv, show -(k - q) = -k - -q by abel]
    rfl
  · funext a b c d
    unfold chi0rFromGr
    rw [hc.assign hr]
    change _ = distributedAssign ranks rmesh (fun r => chi0rPoint beta g r) (-r) w nu d c b a
    rw [hc.assign hr]
    simp only [chi0rPoint, revG]

/-- C131: the bubble in imaginary time and its static value. -/
theorem C131_bubble_tau {ranks : ℕ} (hr : 0 < ranks) (L : ℕ) {rmesh : List (Lat n)} (hc : Complete rmesh) (beta : ℂ)
    (g : ℕ → Lat n → o → o → ℂ) (r : Lat n) :
    (∀ t, chi0tr ranks L rmesh (revG g) r t = rev4 (chi0tr ranks L rmesh g (-r) t)) ∧
      chi0W0r ranks beta L rmesh (revG g) r = rev4 (chi0W0r ranks beta L rmesh g (-r)) := by
  have key : ∀ t, chi0tPoint L (revG g) r t = rev4 (chi0tPoint L g (-r) t) := fun t => rfl
  constructor
  · intro t
    unfold chi0tr
    rw [hc.assign hr, hc.assign hr, key t]
  · unfold chi0W0r
    rw [hc.assign hr, hc.assign hr]
    funext a b c d
    have hs : (∑ t ∈ Finset.range (L + 1), chi0tPoint L (revG g) r t) a b c d
        = (∑ t ∈ Finset.range (L + 1), chi0tPoint L g (-r) t) d c b a := by
      simp only [Finset.sum_apply]
      exact Finset.sum_congr rfl fun t _ => rfl
    simp only [trapz, rev4, Pi.smul_apply, Pi.sub_apply, hs]
    rfl

/-! ## Lindhard function -/

/-- C131: the Lindhard function of the reversed model, with any diagonalisation routines and any tolerance. -/
theorem C131_lindhard {ranks ranks' : ℕ} (hr : 0 < ranks) (hr' : 0 < ranks') {eig eig' : Eig o} (hs : EigSpec eig)
    (hs' : EigSpec eig') (tol beta mu : ℝ) {kmesh : List (Lat n)} (hc : Complete kmesh) (e : Lat n → Matrix o o ℂ)
    (he : ∀ k, (e k).IsHermitian) (z : ℂ) (q : Lat n) :
    lindhard ranks' eig' tol beta mu kmesh (revE Neg.neg e) z q = rev4 (lindhard ranks eig tol beta mu kmesh e z (-q)) := by
  have he' : ∀ k, (revE Neg.neg e k).IsHermitian := fun k => (he (-k)).transpose
  funext a b c d
  simp only [lindhard, rev4, Pi.smul_apply]
  congr 1
  rw [C02_distributedAccumulate ranks hr, C02_distributedAccumulate ranks' hr', hc.sum, hc.sum]
  simp only [Finset.sum_apply]
  rw [← Equiv.sum_comp (Equiv.neg (Lat n)) fun k => lindhardTerm eig tol beta mu e z (-q) k d c b a]
  refine Finset.sum_congr rfl fun k _ => ?_
  rw [Equiv.neg_apply]
  have hd : ∀ k, Diag (revE Neg.neg e k - (mu : ℂ) • 1)
      ((sys eig mu e (-k)).1, (sys eig mu e (-k)).2.map (starRingEnd ℂ)) := by
    intro k
    have h := (sys_diag hs mu he (-k)).transpose
    rw [Matrix.transpose_sub, Matrix.transpose_smul, Matrix.transpose_one] at h
    exact h
  have h1 : lindhardTerm eig' tol beta mu (revE Neg.neg e) z q k
      = dbl ((sys eig mu e (-k)).1, (sys eig mu e (-k)).2.map (starRingEnd ℂ))
          ((sys eig mu e (-(k + q))).1, (sys eig mu e (-(k + q))).2.map (starRingEnd ℂ)) (totalFactor tol beta z) :=
    dbl_unique (sys_diag hs' mu he' k) (hd k) (sys_diag hs' mu he' (k + q)) (hd (k + q)) _
  rw [h1]
  change _ = dbl (sys eig mu e (-k)) (sys eig mu e (-k + -q)) (totalFactor tol beta z) d c b a
  rw [show -(k + q) = -k + -q by abel]
  simp only [dbl]
  refine Finset.sum_congr rfl fun i _ => Finset.sum_congr rfl fun j _ => ?_
  simp only [Matrix.conjTranspose_apply, Matrix.map_apply, Complex.star_def, Complex.conj_conj]
  ring

/-! ## Two-particle equations -/

theorem pairMat_rev (t : Rpa.T4 o ℂ) :
    Rpa.pairMat (rev4 t) = (Rpa.pairMat t)ᵀ.submatrix (Equiv.prodComm o o) (Equiv.prodComm o o) := rfl

/-- a geometric series read backwards -/
theorem push_through {m : Type*} [Fintype m] [DecidableEq m] (A B : Matrix m m ℂ) : (1 - A * B)⁻¹ * A = A * (1 - B * A)⁻¹ := by
  have hdet : (1 - B * A).det = (1 - A * B).det := Matrix.det_one_sub_mul_comm B A
  by_cases h : IsUnit (1 - A * B).det
  · have h' : IsUnit (1 - B * A).det := hdet ▸ h
    calc (1 - A * B)⁻¹ * A = (1 - A * B)⁻¹ * (A * ((1 - B * A) * (1 - B * A)⁻¹)) := by
          rw [Matrix.mul_nonsing_inv _ h', Matrix.mul_one]
      _ = (1 - A * B)⁻¹ * ((1 - A * B) * (A * (1 - B * A)⁻¹)) := by
          rw [← Matrix.mul_assoc A, ← Matrix.mul_assoc (1 - A * B)]
          congr 2
          rw [Matrix.mul_sub, Matrix.sub_mul, Matrix.mul_one, Matrix.one_mul, Matrix.mul_assoc]
      _ = A * (1 - B * A)⁻¹ := by rw [← Matrix.mul_assoc, Matrix.nonsing_inv_mul _ h, Matrix.one_mul]
  · rw [Matrix.nonsing_inv_apply_not_isUnit _ h, Matrix.nonsing_inv_apply_not_isUnit _ (hdet ▸ h), Matrix.zero_mul, Matrix.mul_zero]

theorem transpose_ladder {m : Type*} [Fintype m] [DecidableEq m] (A B : Matrix m m ℂ) :
    (1 - Aᵀ * Bᵀ)⁻¹ * Aᵀ = ((1 - A * B)⁻¹ * A)ᵀ := by
  rw [push_through, Matrix.transpose_mul, Matrix.transpose_nonsing_inv, Matrix.transpose_sub, Matrix.transpose_one, Matrix.transpose_mul]

theorem rpaPoint_rev (chi0 U : Rpa.T4 o ℂ) : Rpa.rpaPoint (rev4 chi0) (rev4 U) = rev4 (Rpa.rpaPoint chi0 U) := by
  apply Herm.pairMat_inj
  rw [pairMat_rev, Rpa.rpaPoint, Rpa.rpaPoint, Rpa.pairMat_matTensor, Rpa.pairMat_matTensor, pairMat_rev, pairMat_rev,
    Mirror.submatrix_ladder, transpose_ladder]

theorem screened_rev (chi V : Rpa.T4 o ℂ) :
    Rpa.screenedBubblePoint (rev4 chi) (rev4 V) = rev4 (Rpa.screenedBubblePoint chi V) ∧
    Rpa.screenedGeneralizedPoint (rev4 chi) (rev4 V) = rev4 (Rpa.screenedGeneralizedPoint chi V) := by
  have h : ∀ t : Rpa.T4 o ℂ, rev4 t = Mirror.hole4 (Herm.exch t) := fun _ => rfl
  rw [h, h, h, h, (Mirror.screened_hole _ _).1, (Mirror.screened_hole _ _).2, (Herm.screened_exch _ _).1, (Herm.screened_exch _ _).2]
  exact ⟨rfl, rfl⟩

variable {P : Type*} [DecidableEq P]

/-- C131: the RPA susceptibility of the reversed model; `np` is `(ω, q) → (ω, -q)`. -/
theorem C131_rpa {ranks : ℕ} (hr : 0 < ranks) {mesh : List P} (hm : mesh.Nodup) {np : P → P} (hnp : ∀ p, np p ∈ mesh ↔ p ∈ mesh)
    (chi0 : P → Rpa.T4 o ℂ) (U : Rpa.T4 o ℂ) (p : P) :
    Rpa.solveRpaPH ranks mesh (fun p => rev4 (chi0 (np p))) (rev4 U) p = rev4 (Rpa.solveRpaPH ranks mesh chi0 U (np p)) := by
  by_cases hp : p ∈ mesh
  · rw [Rpa.solveRpaPH_apply ranks hr mesh hm _ _ p hp, Rpa.solveRpaPH_apply ranks hr mesh hm _ _ _ ((hnp p).2 hp), rpaPoint_rev]
  · unfold Rpa.solveRpaPH
    rw [C02_distributedAssign ranks hr _ hm, C02_distributedAssign ranks hr _ hm, if_neg hp, if_neg fun h => hp ((hnp p).1 h)]
    rfl

variable {W K : Type*} [DecidableEq W] [DecidableEq K]

/-- the reversed interaction -/
def revBare (nk : K → K) : Rpa.Bare W K o ℂ → Rpa.Bare W K o ℂ
  | .static v => .static fun k => rev4 (v (nk k))
  | .dynamic v => .dynamic fun w k => rev4 (v w (nk k))

theorem revBare_at (nk : K → K) (V : Rpa.Bare W K o ℂ) (w : W) (k : K) : (revBare nk V).at w k = rev4 (V.at w (nk k)) := by
  cases V <;> rfl

/-- C131: the screened interaction of the reversed model, from the bubble and from a generalised susceptibility. -/
theorem C131_screened {ranks : ℕ} (hr : 0 < ranks) {mesh : List (W × K)} (hm : mesh.Nodup) {nk : K → K}
    (hnk : ∀ w k, (w, nk k) ∈ mesh ↔ (w, k) ∈ mesh) (kmesh : List K) (chi : W × K → Rpa.T4 o ℂ) (V : Rpa.Bare W K o ℂ) :
    Rpa.screenedBubble ranks mesh kmesh kmesh (fun p => rev4 (chi (p.1, nk p.2))) (revBare nk V)
        = (Rpa.screenedBubble ranks mesh kmesh kmesh chi V).map (fun res p => rev4 (res (p.1, nk p.2))) ∧
      Rpa.screenedGeneralized ranks mesh kmesh kmesh (fun p => rev4 (chi (p.1, nk p.2))) (revBare nk V)
        = (Rpa.screenedGeneralized ranks mesh kmesh kmesh chi V).map fun res p => rev4 (res (p.1, nk p.2)) := by
  constructor
  · unfold Rpa.screenedBubble
    rw [if_neg (by simp), if_neg (by simp)]
    refine congrArg Except.ok ?_
    funext p
    dsimp only
    rw [C02_distributedAssign ranks hr _ hm, C02_distributedAssign ranks hr _ hm]
    by_cases hp : p ∈ mesh
    · rw [if_pos hp, if_pos ((hnk p.1 p.2).2 hp), revBare_at, (screened_rev _ _).1]
    · rw [if_neg hp, if_neg fun h => hp ((hnk p.1 p.2).1 h)]
      rfl
  · unfold Rpa.screenedGeneralized
    rw [if_neg (by simp), if_neg (by simp)]
    refine congrArg Except.ok ?_
    funext p
    dsimp only
    rw [C02_distributedAssign ranks hr _ hm, C02_distributedAssign ranks hr _ hm]
    by_cases hp : p ∈ mesh
    · rw [if_pos hp, if_pos ((hnk p.1 p.2).2 hp), revBare_at, (screened_rev _ _).2]
    · rw [if_neg hp, if_neg fun h => hp ((hnk p.1 p.2).1 h)]
      rfl

variable {ν : Type*} [Fintype ν] [DecidableEq ν]

/-- a two-frequency tensor read backwards -/
def rev6 (t : Bse.T6 ν o ℂ) : Bse.T6 ν o ℂ := fun m m' a b c d => t m' m d c b a

theorem chMat_rev6 (t : Bse.T6 ν o ℂ) : Bse.chMat .PH (rev6 t) = (Bse.chMat .PH t)ᵀ := rfl

theorem bsePoint_rev6 (chi0 gamma : Bse.T6 ν o ℂ) :
    Bse.bsePoint (rev6 chi0) (rev6 gamma) = rev6 (Bse.bsePoint chi0 gamma) := by
  apply Bse.chMat_injective .PH
  rw [chMat_rev6, Bse.chMat_bsePoint, Bse.chMat_bsePoint, chMat_rev6, chMat_rev6]
  exact transpose_ladder _ _

theorem diagEmbed_rev6 (chi0 : ν → Bse.T4 o ℂ) : Bse.diagEmbed (fun m => rev4 (chi0 m)) = rev6 (Bse.diagEmbed chi0) := by
  funext m m' a b c d
  simp only [Bse.diagEmbed, rev6]
  by_cases h : m = m'
  · rw [if_pos h, if_pos h.symm, h]; rfl
  · rw [if_neg h, if_neg (Ne.symm h)]; rfl

theorem traceNu_rev6 (beta : ℂ) (t : Bse.T6 ν o ℂ) : Bse.traceNu beta (rev6 t) = rev4 (Bse.traceNu beta t) := by
  funext a b c d
  simp only [Bse.traceNu, rev6, rev4]
  rw [Finset.sum_comm]

/-- C131: the lattice Bethe-Salpeter equation of the reversed model and its frequency sum with the tail correction, on every window. -/
theorem C131_bse {ranks : ℕ} (hr : 0 < ranks) (beta : ℂ) {mesh : List (K × W)} (hm : mesh.Nodup) {wkmesh : List (W × K)}
    (hwm : wkmesh.Nodup) {nk : K → K} (hnk : ∀ k w, (nk k, w) ∈ mesh ↔ (k, w) ∈ mesh)
    (hnk' : ∀ k w, (w, nk k) ∈ wkmesh ↔ (w, k) ∈ wkmesh) (tail : W → K → Bse.T4 o ℂ) (chi0 : W → ν → K → Bse.T4 o ℂ)
    (gamma : W → Bse.T6 ν o ℂ) :
    (∀ k w, Bse.chiqFromChi0qAndGamma (fun w m k => rev4 (chi0 w m (nk k))) (fun w => rev6 (gamma w)) k w
      = rev6 (Bse.chiqFromChi0qAndGamma chi0 gamma (nk k) w)) ∧
    (∀ k w, Bse.chiqSumNuFromChi0qAndGamma ranks beta mesh (fun w m k => rev4 (chi0 w m (nk k))) (fun w => rev6 (gamma w)) (k, w)
      = rev4 (Bse.chiqSumNuFromChi0qAndGamma ranks beta mesh chi0 gamma (nk k, w))) ∧
    ∀ k w, (Bse.solveLatticeBse ranks beta mesh wkmesh (fun w k => rev4 (tail w (nk k))) (fun w m k => rev4 (chi0 w m (nk k)))
        (fun w => rev6 (gamma w))).1 (k, w)
      = rev4 ((Bse.solveLatticeBse ranks beta mesh wkmesh tail chi0 gamma).1 (nk k, w)) := by
  have h1 : ∀ k w, Bse.bsePoint (Bse.diagEmbed fun m => rev4 (chi0 w m (nk k))) (rev6 (gamma w))
      = rev6 (Bse.bsePoint (Bse.diagEmbed fun m => chi0 w m (nk k)) (gamma w)) := by
    intro k w
    rw [diagEmbed_rev6 fun m => chi0 w m (nk k), bsePoint_rev6]
  have h2 : ∀ k w, Bse.chiqSumNuFromChi0qAndGamma ranks beta mesh (fun w m k => rev4 (chi0 w m (nk k)))
      (fun w => rev6 (gamma w)) (k, w) = rev4 (Bse.chiqSumNuFromChi0qAndGamma ranks beta mesh chi0 gamma (nk k, w)) := by
    intro k w
    unfold Bse.chiqSumNuFromChi0qAndGamma
    rw [C02_distributedAssign ranks hr _ hm, C02_distributedAssign ranks hr _ hm]
    by_cases hp : (k, w) ∈ mesh
    · rw [if_pos hp, if_pos ((hnk k w).2 hp), h1, traceNu_rev6]
    · rw [if_neg hp, if_neg fun h => hp ((hnk k w).1 h)]
      rfl
  refine ⟨fun k w => h1 k w, h2, fun k w => ?_⟩
  simp only [Bse.solveLatticeBse]
  funext a b c d
  simp only [Pi.add_apply, Pi.sub_apply, rev4]
  have h3 : Bse.chi0qSumNu ranks beta wkmesh (fun w m k => rev4 (chi0 w m (nk k))) (w, k) a b c d
      = Bse.chi0qSumNu ranks beta wkmesh chi0 (w, nk k) d c b a := by
    unfold Bse.chi0qSumNu
    rw [C02_distributedAssign ranks hr _ hwm, C02_distributedAssign ranks hr _ hwm]
    by_cases hp : (w, k) ∈ wkmesh
    · rw [if_pos hp, if_pos ((hnk' k w).2 hp)]
      rfl
    · rw [if_neg hp, if_neg fun h => hp ((hnk' k w).1 h)]
      rfl
  have h4 := congrFun (congrFun (congrFun (congrFun (h2 k w) a) b) c) d
  simp only [rev4] at h4 h3
  rw [h4, h3]

/-- C131: the irreducible vertex and the full vertex of the reversed impurity. -/
theorem C131_vertex (chi0 chi : W → Bse.T6 ν o ℂ) (w : W) :
    Bse.solveLocalBse (fun w => rev6 (chi0 w)) (fun w => rev6 (chi w)) w = rev6 (Bse.solveLocalBse chi0 chi w) ∧
      Bse.reducibleVertexF (fun w => rev6 (chi0 w)) (fun w => rev6 (chi w)) w = rev6 (Bse.reducibleVertexF chi0 chi w) := by
  have hi : ∀ t : Bse.T6 ν o ℂ, Bse.inverse .PH (rev6 t) = rev6 (Bse.inverse .PH t) := by
    intro t
    apply Bse.chMat_injective .PH
    rw [chMat_rev6, Bse.chMat_inverse, Bse.chMat_inverse, chMat_rev6, Matrix.transpose_nonsing_inv]
  have hp : ∀ s t : Bse.T6 ν o ℂ, Bse.product .PH (rev6 s) (rev6 t) = rev6 (Bse.product .PH t s) := by
    intro s t
    apply Bse.chMat_injective .PH
    rw [chMat_rev6, Bse.chMat_product, Bse.chMat_product, chMat_rev6, chMat_rev6, Matrix.transpose_mul]
  have ha : ∀ r s t : Bse.T6 ν o ℂ, Bse.product .PH (Bse.product .PH r s) t = Bse.product .PH r (Bse.product .PH s t) := by
    intro r s t
    apply Bse.chMat_injective .PH
    simp only [Bse.chMat_product, Matrix.mul_assoc]
  constructor
  · simp only [Bse.solveLocalBse, Bse.inverseIw, hi]
    rfl
  · simp only [Bse.reducibleVertexF, Bse.productIw, Bse.inverseIw]
    rw [show rev6 (chi w) - rev6 (chi0 w) = rev6 (chi w - chi0 w) from rfl, hi, hp, hp, ha]

/-- the contraction of the dual routine: the triangle on the right, its transpose on the left -/
theorem scalarProduct_matrix (v : ν → Bse.T4 o ℂ) (M : Bse.T6 ν o ℂ) (a b c d : o) :
    Bse.scalarProductPH v M v a b c d = ∑ x : ν × o × o, ∑ y : ν × o × o,
      v x.1 x.2.1 x.2.2 b a * Bse.chMat .PH M x y * v y.1 y.2.1 y.2.2 c d := by
  have h : ∀ (L : Matrix (o × o) (ν × o × o) ℂ) (m : Matrix (ν × o × o) (ν × o × o) ℂ) (R : Matrix (ν × o × o) (o × o) ℂ) p q,
      (L * m * R) p q = ∑ x, ∑ y, L p x * m x y * R y q := by
    intro L m R p q
    simp only [Matrix.mul_apply, Finset.sum_mul]
    rw [Finset.sum_comm]
  refine (h (fun r c => v c.1 c.2.1 c.2.2 r.2 r.1) (fun r c => M r.1 c.1 r.2.1 r.2.2 c.2.1 c.2.2)
    (fun r c => v r.1 r.2.2 r.2.1 c.1 c.2) (a, b) (c, d)).trans ?_
  refine Finset.sum_congr rfl fun x _ => ?_
  exact Equiv.sum_comp ((Equiv.refl ν).prodCongr (Equiv.prodComm o o)) fun y : ν × o × o =>
    v x.1 x.2.1 x.2.2 b a * Bse.chMat .PH M x y * v y.1 y.2.1 y.2.2 c d

theorem scalarProduct_rev6 (v : ν → Bse.T4 o ℂ) (M : Bse.T6 ν o ℂ) :
    Bse.scalarProductPH v (rev6 M) v = rev4 (Bse.scalarProductPH v M v) := by
  funext a b c d
  change _ = Bse.scalarProductPH v M v d c b a
  rw [scalarProduct_matrix, scalarProduct_matrix, Finset.sum_comm]
  refine Finset.sum_congr rfl fun x _ => Finset.sum_congr rfl fun y _ => ?_
  rw [chMat_rev6, Matrix.transpose_apply]
  ring

/-- the triangle vertex of an impurity, `(1/β) ∑_ν' χ0⁻¹ χ` (the input `L_wn` of `solve_lattice_dbse`) -/
def triangle (beta : ℂ) (chi0 chi : Bse.T6 ν o ℂ) : ν → Bse.T4 o ℂ := fun m a b c d =>
  (∑ m', Bse.product .PH (Bse.inverse .PH chi0) chi m m' a b c d) / beta

/-- the dual Bethe-Salpeter calculation: both vertices and the susceptibility come from the impurity -/
def dual (ranks : ℕ) (beta : ℂ) (mesh : List (K × W)) (chi0nl : W → ν → K → Bse.T4 o ℂ) (chi0 chi : W → Bse.T6 ν o ℂ) :
    K × W → Bse.T4 o ℂ :=
  Bse.solveLatticeDbse ranks mesh chi0nl (Bse.reducibleVertexF chi0 chi) (fun w => triangle beta (chi0 w) (chi w))
    fun w => Bse.traceNu beta (chi w)

theorem dual_apply {ranks : ℕ} (hr : 0 < ranks) (beta : ℂ) {mesh : List (K × W)} (hm : mesh.Nodup)
    (chi0nl : W → ν → K → Bse.T4 o ℂ) (chi0 chi : W → Bse.T6 ν o ℂ) (k : K) (w : W) :
    dual ranks beta mesh chi0nl chi0 chi (k, w) = (if (k, w) ∈ mesh then
      Bse.scalarProductPH (triangle beta (chi0 w) (chi w))
        (Bse.bsePoint (Bse.diagEmbed fun m => chi0nl w m k) (Bse.reducibleVertexF chi0 chi w)) (triangle beta (chi0 w) (chi w))
      else 0) + Bse.traceNu beta (chi w) := by
  unfold dual Bse.solveLatticeDbse Bse.chiqSumNuL
  rw [C02_distributedAssign ranks hr _ hm]
  by_cases hp : (k, w) ∈ mesh
  · rw [if_pos hp, if_pos hp]
  · rw [if_neg hp, if_neg hp]

/-- C131, restricted to an impurity that is its own reversal: the susceptibility of the dual Bethe-Salpeter equation on the reversed
lattice. -/
theorem C131_dual_partial {ranks : ℕ} (hr : 0 < ranks) (beta : ℂ) {mesh : List (K × W)} (hm : mesh.Nodup) {nk : K → K}
    (hnk : ∀ k w, (nk k, w) ∈ mesh ↔ (k, w) ∈ mesh) (chi0nl : W → ν → K → Bse.T4 o ℂ) (chi0 chi : W → Bse.T6 ν o ℂ)
    (h0 : ∀ w, rev6 (chi0 w) = chi0 w) (h : ∀ w, rev6 (chi w) = chi w) (k : K) (w : W) :
    dual ranks beta mesh (fun w m k => rev4 (chi0nl w m (nk k))) (fun w => rev6 (chi0 w)) (fun w => rev6 (chi w)) (k, w)
      = rev4 (dual ranks beta mesh chi0nl chi0 chi (nk k, w)) := by
  have hF : Bse.reducibleVertexF chi0 chi w = rev6 (Bse.reducibleVertexF chi0 chi w) := by
    have := (C131_vertex chi0 chi w).2
    simp only [h0, h] at this
    exact this
  simp only [h0, h]
  have hT : Bse.traceNu beta (chi w) = rev4 (Bse.traceNu beta (chi w)) := by
    rw [← traceNu_rev6, h]
  rw [dual_apply hr beta hm, dual_apply hr beta hm]
  by_cases hp : (k, w) ∈ mesh
  · rw [if_pos hp, if_pos ((hnk k w).2 hp)]
    have h1 : Bse.bsePoint (Bse.diagEmbed fun m => rev4 (chi0nl w m (nk k))) (Bse.reducibleVertexF chi0 chi w)
        = rev6 (Bse.bsePoint (Bse.diagEmbed fun m => chi0nl w m (nk k)) (Bse.reducibleVertexF chi0 chi w)) := by
      rw [← bsePoint_rev6, ← hF, diagEmbed_rev6 fun m => chi0nl w m (nk k)]
    rw [h1, scalarProduct_rev6]
    funext a b c d
    exact congrArg (_ + ·) (congrFun (congrFun (congrFun (congrFun hT a) b) c) d)
  · rw [if_neg hp, if_neg fun h => hp ((hnk k w).1 h)]
    funext a b c d
    exact congrArg (_ + ·) (congrFun (congrFun (congrFun (congrFun hT a) b) c) d)

/-! ### An impurity that is not its own reversal -/

/-- two orbitals, one frequency: the element that breaks the symmetry -/
def i0 : Unit × Fin 2 × Fin 2 := ((), 0, 1)
/-- its partner -/
def j0 : Unit × Fin 2 × Fin 2 := ((), 1, 1)

/-- bare susceptibility: the unit matrix -/
def chiB : Bse.T6 Unit (Fin 2) ℂ := Bse.chTensor .PH 1
/-- full susceptibility: one element more -/
def chiF : Bse.T6 Unit (Fin 2) ℂ := Bse.chTensor .PH (1 + Matrix.single i0 j0 1)

theorem single_sq : (Matrix.single i0 j0 (1 : ℂ)) * Matrix.single i0 j0 1 = 0 :=
  Matrix.single_mul_single_of_ne (1 : ℂ) i0 j0 i0 (by decide) 1

/-- a bubble that is its own reversal -/
def chiN : Unit → Unit → Unit → Bse.T4 (Fin 2) ℂ := fun _ _ _ a b c d => if a = d ∧ b = c then 1 else 0

theorem chMat_chiN : Bse.chMat .PH (Bse.diagEmbed fun m => chiN () m ()) = 1 := by
  ext ⟨u, a, b⟩ ⟨v, d, c⟩
  simp [Bse.chMat, Bse.diagEmbed, chiN, Matrix.one_apply, Prod.ext_iff]

/-- the dual routine with a unit bare susceptibility -/
theorem dual_unit (B : Matrix (Unit × Fin 2 × Fin 2) (Unit × Fin 2 × Fin 2) ℂ) (a b c d : Fin 2) :
    dual 1 1 [((), ())] chiN (fun _ => Bse.chTensor .PH 1) (fun _ => Bse.chTensor .PH B) ((), ()) a b c d
      = (Bᵀ * (1 - (B - 1))⁻¹ * B) ((), a, b) ((), d, c) + B ((), a, b) ((), d, c) := by
  have hT : ∀ (y : Unit × Fin 2 × Fin 2) (c d : Fin 2), triangle 1 (Bse.chTensor .PH 1) (Bse.chTensor .PH B) y.1 y.2.1 y.2.2 c d
      = B y ((), d, c) := by
    intro y c d
    unfold triangle
    rw [Fintype.sum_unique, div_one]
    change Bse.chMat .PH (Bse.product .PH _ _) (y.1, y.2.1, y.2.2) ((), d, c) = _
    rw [Bse.chMat_product, Bse.chMat_inverse, Bse.chMat_chTensor, Bse.chMat_chTensor, inv_one, Matrix.one_mul]
  have hM : Bse.chMat .PH (Bse.bsePoint (Bse.diagEmbed fun m => chiN () m ())
      (Bse.reducibleVertexF (fun _ : Unit => Bse.chTensor .PH 1) (fun _ => Bse.chTensor .PH B) ())) = (1 - (B - 1))⁻¹ := by
    rw [Bse.chMat_bsePoint, chMat_chiN, Matrix.one_mul, Matrix.mul_one]
    simp only [Bse.reducibleVertexF, Bse.productIw, Bse.inverseIw, Bse.chMat_product, Bse.chMat_inverse, Bse.chMat_sub,
      Bse.chMat_chTensor, inv_one, Matrix.one_mul, Matrix.mul_one]
  rw [dual_apply (by decide) 1 (by simp), if_pos (by simp), Pi.add_apply, Pi.add_apply, Pi.add_apply, Pi.add_apply]
  congr 1
  · rw [scalarProduct_matrix, hM]
    simp only [hT, Matrix.mul_apply, Matrix.transpose_apply, Finset.sum_mul]
    rw [Finset.sum_comm]
  · simp [Bse.traceNu, Bse.chTensor]

/-- C131 fails in the dual routine: it takes the triangle vertex of one side for both sides, so that the reversed impurity does not
give the reversed susceptibility (here with a bubble that is its own reversal). -/
theorem C131_dual_violated : (∀ w m k, rev4 (chiN w m k) = chiN w m k) ∧
    dual 1 1 [((), ())] chiN (fun _ => rev6 chiB) (fun _ => rev6 chiF) ((), ())
      ≠ rev4 (dual 1 1 [((), ())] chiN (fun _ => chiB) (fun _ => chiF) ((), ())) := by
  refine ⟨fun w m k => ?_, fun h => ?_⟩
  · funext a b c d
    simp only [rev4, chiN]
    exact if_congr ⟨fun h => ⟨h.1.symm, h.2.symm⟩, fun h => ⟨h.1.symm, h.2.symm⟩⟩ rfl rfl
  set N : Matrix (Unit × Fin 2 × Fin 2) (Unit × Fin 2 × Fin 2) ℂ := Matrix.single i0 j0 1 with hN
  have hB : rev6 chiB = Bse.chTensor .PH 1 := by
    apply Bse.chMat_injective .PH
    rw [chMat_rev6, chiB, Bse.chMat_chTensor, Matrix.transpose_one]
  have hF : rev6 chiF = Bse.chTensor .PH (1 + Nᵀ) := by
    apply Bse.chMat_injective .PH
    rw [chMat_rev6, chiF, Bse.chMat_chTensor, Bse.chMat_chTensor, Matrix.transpose_add, Matrix.transpose_one]
  have hi : ∀ X : Matrix (Unit × Fin 2 × Fin 2) (Unit × Fin 2 × Fin 2) ℂ, X * X = 0 →
      (1 - (1 + X - 1))⁻¹ * (1 + X) = 1 + (2 : ℂ) • X := by
    intro X hX
    have h1 : (1 - (1 + X - 1))⁻¹ = 1 + X := by
      refine Matrix.inv_eq_right_inv ?_
      rw [add_sub_cancel_left, Matrix.sub_mul, Matrix.mul_add, Matrix.mul_add, hX]
      simp
    rw [h1, Matrix.mul_add, Matrix.add_mul, Matrix.add_mul, hX, two_smul]
    simp [add_assoc]
  have h2 := congrFun (congrFun (congrFun (congrFun h 0) 1) 1) 0
  simp only [rev4] at h2
  rw [hB, hF] at h2
  simp only [chiB, chiF] at h2
  rw [dual_unit, dual_unit, Matrix.mul_assoc, Matrix.mul_assoc, hi _ single_sq,
    hi Nᵀ (by rw [← Matrix.transpose_mul, single_sq, Matrix.transpose_zero])] at h2
  simp only [hN, Matrix.transpose_add, Matrix.transpose_one, Matrix.transpose_single, Matrix.add_mul, Matrix.mul_add, Matrix.one_mul,
    Matrix.mul_one, Matrix.mul_smul, Matrix.single_mul_single_same, Matrix.add_apply, Matrix.smul_apply, Matrix.single_apply,
    Matrix.one_apply, i0, j0] at h2
  norm_num at h2

open Verif.Operators in
/-- C131: the interaction tensor of a self adjoint operator read backwards is its complex conjugate: real interactions are their own
reversal. -/
theorem C131_tensor {ι : Type} [LinearOrder ι] (fs : List ι) (hnd : fs.Nodup) (x : Op ι) (hx : Canonical x)
    (hself : dagger x = x) (ts : List (Mono ι × ℂ)) (hts : Enumerates ts x) (U : Operators.T4 fs.length)
    (hU : getRpaTensor fs ts = .ok U) (a b c d : Fin fs.length) : rev4 U a b c d = (starRingEnd ℂ) (U a b c d) := by
  have h2 := (Herm.C113_tensor fs hnd x hx hself ts hts U hU a b c d).1
  rw [h2, Complex.conj_conj]
  rfl

end Verif.Reversal
