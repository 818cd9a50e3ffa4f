import Verif.Herm.Props
import Verif.Dyson.Model
import Verif.Supercell.Gw

/-!
# C129: particles and holes

Instead of electrons one can count holes: `c ↔ c†`, `k → -k`.  The dispersion becomes `-e(-k)ᵀ`, the chemical potential `-μ`, the
self energy `-Σ(-iν, -k)ᵀ`, the interaction `U_{badc}`.  The Green's function of the holes is `-G(-iν, -k)ᵀ`, response functions
`χ_{abcd}` become `χ_{badc}` at the same frequency and momentum.  Fermionic frequencies are indices, `-m - 1` is the index of the
opposite frequency.
-/

noncomputable section

namespace Verif.Mirror

set_option linter.unusedSectionVars false

open Complex Matrix Verif.Parallel Verif.Fourier Verif.Bubble Verif.Gw Verif.Lindhard

/-- a response function or an interaction, written for holes -/
def hole4 {o F : Type*} (t : o → o → o → o → F) : o → o → o → o → F := fun a b c d => t b a d c

/-! ## Green's functions -/

section Dyson

open Verif.Dyson

variable {F : Type*} [Field F] {m : Type*} [Fintype m] [DecidableEq m] {W K : Type*} [DecidableEq W] [DecidableEq K]

/-- the dispersion of the holes; `nk` is `k → -k` -/
def holeE (nk : K → K) (e : K → Matrix m m F) : K → Matrix m m F := fun k => -(e (nk k))ᵀ

/-- the self energy of the holes; `nw` is the opposite frequency -/
def holeSigma (nw : W → W) (nk : K → K) : Sigma W K m F → Sigma W K m F
  | .local s => .local fun w => -(s (nw w))ᵀ
  | .lattice s => .lattice fun w k => -(s (nw w) (nk k))ᵀ

theorem holeSigma_term (nw : W → W) (nk : K → K) (σ : Sigma W K m F) (w : W) (k : K) :
    (holeSigma nw nk σ).term w k = -(σ.term (nw w) (nk k))ᵀ := by
  cases σ <;> rfl

theorem mirror_inv {z z' : F} (hz : z' = -z) (E S : Matrix m m F) :
    (z' • (1 : Matrix m m F) - -Eᵀ - -Sᵀ)⁻¹ = -((z • (1 : Matrix m m F) - E - S)⁻¹)ᵀ := by
  rw [Matrix.transpose_nonsing_inv]
  have h1 : (z' • (1 : Matrix m m F) - -Eᵀ - -Sᵀ) = -((z • (1 : Matrix m m F) - E - S)ᵀ) := by
    rw [hz, Matrix.transpose_sub, Matrix.transpose_sub, Matrix.transpose_smul, Matrix.transpose_one, neg_smul]
    abel
  rw [h1]
  have h2 : ∀ A : Matrix m m F, (-A)⁻¹ = -A⁻¹ := by
    intro A
    have : IsUnit (-1 : F) := isUnit_one.neg
    rw [show -A = (-1 : F) • A by rw [neg_one_smul]]
    by_cases hA : IsUnit A.det
    · refine Matrix.inv_eq_right_inv ?_
      rw [Matrix.smul_mul, Matrix.mul_neg, Matrix.mul_nonsing_inv _ hA, smul_neg, neg_one_smul, neg_neg]
    · have hA' : ¬ IsUnit ((-1 : F) • A).det := by
        rw [Matrix.det_smul]
        exact fun h => hA (isUnit_of_mul_isUnit_right h)
      rw [Matrix.nonsing_inv_apply_not_isUnit _ hA, Matrix.nonsing_inv_apply_not_isUnit _ hA', neg_zero]
  exact h2 _

variable {nw : W → W} {nk : K → K}

/-- C129: the lattice Green's functions of the holes. `idelta` changes its sign too: a retarded function becomes an advanced
one, Matsubara functions (`idelta = 0`) stay what they are. -/
theorem C129_dyson {ranks : ℕ} (hr : 0 < ranks) (mu : F) {val : W → F} (hv : ∀ w, val (nw w) = -val w) {wmesh : List W}
    {kmesh : List K} (hm : (prodMesh wmesh kmesh).Nodup) (hw : ∀ w, nw w ∈ wmesh ↔ w ∈ wmesh) (hk : ∀ k, nk k ∈ kmesh ↔ k ∈ kmesh)
    (e : K → Matrix m m F) (sigma : Sigma W K m F) (idelta : F) (w : W) (k : K) :
    latticeDysonG0Xk ranks (-mu) val wmesh kmesh (holeE nk e) (w, k)
        = -(latticeDysonG0Xk ranks mu val wmesh kmesh e (nw w, nk k))ᵀ ∧
      latticeDysonGXk ranks (-mu) val wmesh kmesh (holeE nk e) (holeSigma nw nk sigma) (-idelta) (w, k)
        = -(latticeDysonGXk ranks mu val wmesh kmesh e sigma idelta (nw w, nk k))ᵀ := by
  have hmem : (nw w, nk k) ∈ prodMesh wmesh kmesh ↔ (w, k) ∈ prodMesh wmesh kmesh := by
    simp only [prodMesh, List.mem_flatMap, List.mem_map, Prod.mk.injEq, exists_eq_right_right]
    rw [hw, hk]
  constructor
  · unfold latticeDysonG0Xk
    rw [C02_distributedAssign ranks hr _ hm, C02_distributedAssign ranks hr _ hm]
    by_cases h : (w, k) ∈ prodMesh wmesh kmesh
    · rw [if_pos h, if_pos (hmem.2 h)]
      have h1 := mirror_inv (z := val (nw w) + mu) (z' := val w + -mu) (by rw [hv]; ring) (e (nk k)) 0
      rw [Matrix.transpose_zero, neg_zero, sub_zero, sub_zero] at h1
      exact h1
    · rw [if_neg h, if_neg fun h' => h (hmem.1 h'), Matrix.transpose_zero, neg_zero]
  · unfold latticeDysonGXk
    rw [C02_distributedAssign ranks hr _ hm, C02_distributedAssign ranks hr _ hm]
    by_cases h : (w, k) ∈ prodMesh wmesh kmesh
    · rw [if_pos h, if_pos (hmem.2 h)]
      dsimp only
      rw [holeSigma_term]
      exact mirror_inv (by rw [hv]; ring) _ _
    · rw [if_neg h, if_neg fun h' => h (hmem.1 h'), Matrix.transpose_zero, neg_zero]

/-- C129: the local Green's function of the holes. -/
theorem C129_dyson_local {ranks : ℕ} (hr : 0 < ranks) (mu : F) {val : W → F} (hv : ∀ w, val (nw w) = -val w) {wmesh : List W}
    {kmesh : List K} (hw : ∀ w, nw w ∈ wmesh ↔ w ∈ wmesh) (hk : (kmesh.map nk).Perm kmesh)
    (e : K → Matrix m m F) (sigma : Sigma W K m F) (idelta : F) (w : W) :
    latticeDysonGX ranks (-mu) val wmesh kmesh (holeE nk e) (holeSigma nw nk sigma) (-idelta) w
      = -(latticeDysonGX ranks mu val wmesh kmesh e sigma idelta (nw w))ᵀ := by
  unfold latticeDysonGX
  rw [C02_distributedAccumulate ranks hr, C02_distributedAccumulate ranks hr, Matrix.transpose_smul, ← smul_neg]
  congr 1
  rw [← (hk.map fun k => if nw w ∈ wmesh then ((val (nw w) + idelta + mu) • (1 : Matrix m m F) - e k - sigma.term (nw w) k)⁻¹
    else 0).sum_eq, List.map_map]
  have hs : ∀ (l : List K) (f : K → Matrix m m F), -((l.map f).sum)ᵀ = (l.map fun k => -(f k)ᵀ).sum := by
    intro l f
    induction l with
    | nil => simp
    | cons x l ih => rw [List.map_cons, List.sum_cons, List.map_cons, List.sum_cons, ← ih, Matrix.transpose_add, neg_add]
  rw [hs]
  congr 1
  refine List.map_congr_left fun k _ => ?_
  simp only [Function.comp]
  by_cases h : w ∈ wmesh
  · rw [if_pos h, if_pos ((hw w).2 h), holeSigma_term]
    exact mirror_inv (by rw [hv]; ring) _ _
  · rw [if_neg h, if_neg fun h' => h ((hw w).1 h'), Matrix.transpose_zero, neg_zero]

end Dyson

/-! ## Bubbles -/

variable {dm : ℕ} {n : Fin dm → ℕ} [∀ i, NeZero (n i)] {o : Type*} [Fintype o] [DecidableEq o]

/-- the Green's function of the holes, in momentum or in real space -/
def holeG (g : G n o) : G n o := fun w k a b => -g (-w - 1) (-k) b a

/-- the Green's function of the holes in imaginary time -/
def holeT (L : ℕ) (g : ℕ → Lat n → o → o → ℂ) : ℕ → Lat n → o → o → ℂ := fun t r a b => g (L - t) (-r) b a

/-- the transform between momentum and real space keeps the relation -/
theorem C129_transform (g : G n o) (w : ℤ) (r : Lat n) :
    kToR (holeG g w) r = holeG (fun w => kToR (g w)) w r := by
  funext a b
  change _ = -kToR (g (-w - 1)) (-r) b a
  rw [Supercell.kToR_entry2, Supercell.kToR_entry2, ← Supercell.kToR_flip (fun k => g (-w - 1) k b a) r]
  have h : (fun k => holeG g w k a b) = (-1 : ℂ) • fun k => g (-w - 1) (-k) b a := by
    funext k
    simp [holeG]
  rw [h]
  refine Eq.trans (congrFun (Supercell.Cell.kToR_smul' (-1 : ℂ) fun k => g (-w - 1) (-k) b a) r) ?_
  simp

/-- C129: the bubble of the holes, from the Green's function in momentum space and from the one in real space. The fermionic
frequency goes to `-ν - ω`. -/
theorem C129_bubble {ranks : ℕ} (hr : 0 < ranks) (beta : ℂ) {rmesh : List (Lat n)} (hc : Complete rmesh) (g : G n o) (w nu : ℤ) :
    (∀ q, chi0nFromGwk beta (holeG g) w q nu = hole4 (chi0nFromGwk beta g w q (-nu - w - 1))) ∧
      ∀ r, chi0rFromGr ranks beta rmesh (holeG g) r w nu = hole4 (chi0rFromGr ranks beta rmesh g r w (-nu - w - 1)) := by
  have e1 : -nu - w - 1 + w = -nu - 1 := by ring
  have e2 : -(nu + w) - 1 = -nu - w - 1 := by ring
  constructor
  · intro q
    funext a b c d
    simp only [chi0nFromGwk, hole4, holeG, e1, e2]
    congr 1
    rw [← Equiv.sum_comp (Equiv.subLeft q) fun k => -(g (-nu - w - 1) k c b * g (-nu - 1) (k - q) a d)]
    refine Finset.sum_congr rfl fun k _ => ?_
    rw [Equiv.subLeft_apply, neg_sub, show q - k - q = -k by abel]
    ring
  · intro r
    funext a b c d
    unfold chi0rFromGr
    rw [hc.assign hr]
    change _ = distributedAssign ranks rmesh (fun r => chi0rPoint beta g r) r w (-nu - w - 1) b a d c
    rw [hc.assign hr]
    simp only [chi0rPoint, holeG, e1, e2, neg_neg]
    ring

/-- C129: the bubble in imaginary time and its static value. -/
theorem C129_bubble_tau {ranks : ℕ} (hr : 0 < ranks) (L : ℕ) {rmesh : List (Lat n)} (hc : Complete rmesh) (beta : ℂ)
    (g : ℕ → Lat n → o → o → ℂ) (r : Lat n) :
    (∀ t ≤ L, chi0tr ranks L rmesh (holeT L g) r t = hole4 (chi0tr ranks L rmesh g r t)) ∧
      chi0W0r ranks beta L rmesh (holeT L g) r = hole4 (chi0W0r ranks beta L rmesh g r) := by
  have key : ∀ t ≤ L, chi0tPoint L (holeT L g) r t = hole4 (chi0tPoint L g r t) := by
    intro t ht
    funext a b c d
    simp only [chi0tPoint, hole4, holeT, neg_neg, Nat.sub_sub_self ht]
    ring
  constructor
  · intro t ht
    unfold chi0tr
    rw [hc.assign hr, hc.assign hr, key t ht]
  · unfold chi0W0r
    rw [hc.assign hr, hc.assign hr]
    funext a b c d
    have h0 := key 0 (Nat.zero_le _)
    have hL := key L le_rfl
    have hs : (∑ t ∈ Finset.range (L + 1), chi0tPoint L (holeT L g) r t) a b c d
        = (∑ t ∈ Finset.range (L + 1), chi0tPoint L g r t) b a d c := by
      simp only [Finset.sum_apply]
      refine Finset.sum_congr rfl fun t ht => ?_
      rw [key t (Nat.lt_succ_iff.1 (Finset.mem_range.1 ht))]
      rfl
    simp only [trapz, hole4, Pi.smul_apply, Pi.sub_apply, hs, h0, hL]

/-! ## Lindhard function -/

theorem fermi_neg (x : ℝ) : Lindhard.fermi (-x) = 1 - Lindhard.fermi x := by
  have h : ∀ y : ℝ, Lindhard.fermi y = 1 / (Real.exp y + 1) := by
    intro y
    unfold Lindhard.fermi
    split_ifs
    · rfl
    · rw [Real.exp_neg]
      have := Real.exp_pos y
      field_simp
  rw [h, h, Real.exp_neg]
  have := Real.exp_pos x
  field_simp
  ring

/-- eigensystem of `-mᵀ` -/
theorem diag_neg_transpose {m : Matrix o o ℂ} {p : (o → ℝ) × Matrix o o ℂ} (hp : Diag m p) :
    Diag (-mᵀ) (fun i => -p.1 i, p.2.map (starRingEnd ℂ)) := by
  obtain ⟨h1, h2, h3⟩ := hp.transpose
  refine ⟨h1, h2, ?_⟩
  rw [h3]
  dsimp only
  rw [← Matrix.neg_mul, ← Matrix.mul_neg]
  congr 2
  ext i j
  by_cases hij : i = j
  · subst hij; simp
  · simp [hij]

theorem totalFactor_mirror (tol beta : ℝ) (z : ℂ) (x y : ℝ) (h : ‖z‖ < tol → |y - x| < tol → y = x) :
    totalFactor tol beta z (-x) (-y) = totalFactor tol beta z y x := by
  unfold totalFactor
  have e1 : -y - -x = x - y := by ring
  simp only [e1, neg_mul, fermi_neg]
  by_cases hc : ‖z‖ < tol ∧ |x - y| < tol
  · rw [if_pos hc, if_pos hc]
    have : y = x := h hc.1 (by rw [abs_sub_comm]; exact hc.2)
    rw [this, mul_neg, Real.cosh_neg]
  · rw [if_neg hc, if_neg hc]
    congr 2
    ring

/-- C129: the Lindhard function of the holes, with any diagonalisation routines.  The levels that the code takes as degenerate
have to be equal (C21 is about this tolerance). -/
theorem C129_lindhard {ranks ranks' : ℕ} (hr : 0 < ranks) (hr' : 0 < ranks') {eig eig' : Eig o} (hs : EigSpec eig)
    (hs' : EigSpec eig') (tol beta mu : ℝ) {kmesh : List (Lat n)} (hc : Complete kmesh) (e : Lat n → Matrix o o ℂ)
    (he : ∀ k, (e k).IsHermitian) (z : ℂ)
    (hsep : ‖z‖ < tol → ∀ k k' i j, |(sys eig mu e k').1 j - (sys eig mu e k).1 i| < tol →
      (sys eig mu e k').1 j = (sys eig mu e k).1 i) (q : Lat n) :
    lindhard ranks' eig' tol beta (-mu) kmesh (holeE Neg.neg e) z q = hole4 (lindhard ranks eig tol beta mu kmesh e z q) := by
  have he' : ∀ k, (holeE Neg.neg e k).IsHermitian := fun k => (he (-k)).transpose.neg
  funext a b c d
  simp only [lindhard, hole4, Pi.smul_apply]
  congr 1
  rw [C02_distributedAccumulate ranks hr, C02_distributedAccumulate ranks' hr', hc.sum, hc.sum]
  simp only [Finset.sum_apply]
  rw [← Equiv.sum_comp (Equiv.subLeft (-q)) fun k => lindhardTerm eig tol beta mu e z q k b a d c]
  refine Finset.sum_congr rfl fun k _ => ?_
  rw [Equiv.subLeft_apply]
  have hd : ∀ k, Diag (holeE Neg.neg e k - ((-mu : ℝ) : ℂ) • 1)
      (fun i => -(sys eig mu e (-k)).1 i, (sys eig mu e (-k)).2.map (starRingEnd ℂ)) := by
    intro k
    have h := diag_neg_transpose (sys_diag hs mu he (-k))
    convert h using 1
    rw [Matrix.transpose_sub, Matrix.transpose_smul, Matrix.transpose_one, holeE]
    push_cast
    rw [neg_smul]
    abel
  have h1 : lindhardTerm eig' tol beta (-mu) (holeE Neg.neg e) z q k
      = dbl (fun i => -(sys eig mu e (-k)).1 i, (sys eig mu e (-k)).2.map (starRingEnd ℂ))
          (fun i => -(sys eig mu e (-(k + q))).1 i, (sys eig mu e (-(k + q))).2.map (starRingEnd ℂ)) (totalFactor tol beta z) :=
    dbl_unique (sys_diag hs' (-mu) he' k) (hd k) (sys_diag hs' (-mu) he' (k + q)) (hd (k + q)) _
  rw [h1]
  have h2 : -q - k + q = -k := by abel
  have h3 : -(k + q) = -q - k := by abel
  change _ = dbl (sys eig mu e (-q - k)) (sys eig mu e (-q - k + q)) (totalFactor tol beta z) b a d c
  rw [h2, h3, dbl_swap]
  simp only [dbl]
  refine Finset.sum_congr rfl fun i _ => Finset.sum_congr rfl fun j _ => ?_
  rw [totalFactor_mirror tol beta z _ _ fun h h' => hsep h _ _ _ _ h']
  simp only [Matrix.conjTranspose_apply, Matrix.map_apply, Complex.star_def, Complex.conj_conj]
  ring

/-! ## Two-particle equations -/

theorem pairMat_hole (t : Rpa.T4 o ℂ) :
    Rpa.pairMat (hole4 t) = (Rpa.pairMat t).submatrix (Equiv.prodComm o o) (Equiv.prodComm o o) := rfl

theorem submatrix_inv {m : Type*} [Fintype m] [DecidableEq m] (s : m ≃ m) (A : Matrix m m ℂ) :
    (1 - A.submatrix s s)⁻¹ = ((1 - A)⁻¹).submatrix s s := by
  rw [← Matrix.inv_submatrix_equiv]
  congr 1
  rw [Matrix.submatrix_sub, Pi.sub_apply, Pi.sub_apply, Matrix.submatrix_one_equiv]

theorem submatrix_ladder {m : Type*} [Fintype m] [DecidableEq m] (s : m ≃ m) (A B : Matrix m m ℂ) :
    (1 - A.submatrix s s * B.submatrix s s)⁻¹ * A.submatrix s s = ((1 - A * B)⁻¹ * A).submatrix s s := by
  rw [Matrix.submatrix_mul_equiv, submatrix_inv, Matrix.submatrix_mul_equiv]

theorem rpaPoint_hole (chi0 U : Rpa.T4 o ℂ) : Rpa.rpaPoint (hole4 chi0) (hole4 U) = hole4 (Rpa.rpaPoint chi0 U) := by
  apply Herm.pairMat_inj
  rw [pairMat_hole, Rpa.rpaPoint, Rpa.rpaPoint, Rpa.pairMat_matTensor, Rpa.pairMat_matTensor, pairMat_hole, pairMat_hole]
  exact submatrix_ladder _ _ _

theorem screened_hole (chi V : Rpa.T4 o ℂ) :
    Rpa.screenedBubblePoint (hole4 chi) (hole4 V) = hole4 (Rpa.screenedBubblePoint chi V) ∧
    Rpa.screenedGeneralizedPoint (hole4 chi) (hole4 V) = hole4 (Rpa.screenedGeneralizedPoint chi V) := by
  constructor
  · apply Herm.pairMat_inj
    rw [pairMat_hole, Rpa.screenedBubblePoint, Rpa.screenedBubblePoint, Rpa.pairMat_matTensor, Rpa.pairMat_matTensor,
      pairMat_hole, pairMat_hole, Matrix.submatrix_mul_equiv, submatrix_inv, Matrix.submatrix_mul_equiv]
  · apply Herm.pairMat_inj
    rw [pairMat_hole, Rpa.screenedGeneralizedPoint, Rpa.screenedGeneralizedPoint, Rpa.pairMat_matTensor,
      Rpa.pairMat_matTensor, pairMat_hole, pairMat_hole, Matrix.submatrix_mul_equiv, Matrix.submatrix_mul_equiv]
    rfl

variable {P : Type*} [DecidableEq P]

/-- C129: the RPA susceptibility of the holes. -/
theorem C129_rpa {ranks : ℕ} (hr : 0 < ranks) {mesh : List P} (hm : mesh.Nodup) (chi0 : P → Rpa.T4 o ℂ) (U : Rpa.T4 o ℂ) (p : P) :
    Rpa.solveRpaPH ranks mesh (fun p => hole4 (chi0 p)) (hole4 U) p = hole4 (Rpa.solveRpaPH ranks mesh chi0 U p) := by
  by_cases hp : p ∈ mesh
  · rw [Rpa.solveRpaPH_apply ranks hr mesh hm _ _ p hp, Rpa.solveRpaPH_apply ranks hr mesh hm _ _ p hp, rpaPoint_hole]
  · unfold Rpa.solveRpaPH
    rw [C02_distributedAssign ranks hr _ hm, C02_distributedAssign ranks hr _ hm, if_neg hp, if_neg hp]
    rfl

variable {W K : Type*} [DecidableEq W] [DecidableEq K]

/-- the interaction of the holes -/
def holeBare : Rpa.Bare W K o ℂ → Rpa.Bare W K o ℂ
  | .static v => .static fun k => hole4 (v k)
  | .dynamic v => .dynamic fun w k => hole4 (v w k)

theorem holeBare_at (V : Rpa.Bare W K o ℂ) (w : W) (k : K) : (holeBare V).at w k = hole4 (V.at w k) := by
  cases V <;> rfl

/-- C129: the screened interaction of the holes, from the bubble and from a generalised susceptibility. -/
theorem C129_screened {ranks : ℕ} (hr : 0 < ranks) {mesh : List (W × K)} (hm : mesh.Nodup) (kmesh : List K)
    (chi : W × K → Rpa.T4 o ℂ) (V : Rpa.Bare W K o ℂ) :
    Rpa.screenedBubble ranks mesh kmesh kmesh (fun p => hole4 (chi p)) (holeBare V)
        = (Rpa.screenedBubble ranks mesh kmesh kmesh chi V).map (fun res p => hole4 (res p)) ∧
      Rpa.screenedGeneralized ranks mesh kmesh kmesh (fun p => hole4 (chi p)) (holeBare V)
        = (Rpa.screenedGeneralized ranks mesh kmesh kmesh chi V).map fun res p => hole4 (res p) := by
  constructor
  · unfold Rpa.screenedBubble
    rw [if_neg (by simp), if_neg (by simp)]
    refine congrArg Except.ok ?_
    funext p
    dsimp only
    rw [C02_distributedAssign ranks hr _ hm, C02_distributedAssign ranks hr _ hm]
    by_cases hp : p ∈ mesh
    · rw [if_pos hp, if_pos hp, holeBare_at, (screened_hole _ _).1]
    · rw [if_neg hp, if_neg hp]
      rfl
  · unfold Rpa.screenedGeneralized
    rw [if_neg (by simp), if_neg (by simp)]
    refine congrArg Except.ok ?_
    funext p
    dsimp only
    rw [C02_distributedAssign ranks hr _ hm, C02_distributedAssign ranks hr _ hm]
    by_cases hp : p ∈ mesh
    · rw [if_pos hp, if_pos hp, holeBare_at, (screened_hole _ _).2]
    · rw [if_neg hp, if_neg hp]
      rfl

variable {ν : Type*} [Fintype ν] [DecidableEq ν]

/-- a two-frequency tensor written for holes; `cn` is the map of fermionic frequencies `ν → -ν - ω` -/
def hole6 (cn : ν ≃ ν) (t : Bse.T6 ν o ℂ) : Bse.T6 ν o ℂ := fun m m' a b c d => t (cn m) (cn m') b a d c

/-- renaming of the rows -/
def rowSwap (cn : ν ≃ ν) : ν × o × o ≃ ν × o × o := cn.prodCongr (Equiv.prodComm o o)

theorem chMat_hole6 (cn : ν ≃ ν) (t : Bse.T6 ν o ℂ) :
    Bse.chMat .PH (hole6 cn t) = (Bse.chMat .PH t).submatrix (rowSwap cn) (rowSwap cn) := rfl

theorem bsePoint_hole6 (cn : ν ≃ ν) (chi0 gamma : Bse.T6 ν o ℂ) :
    Bse.bsePoint (hole6 cn chi0) (hole6 cn gamma) = hole6 cn (Bse.bsePoint chi0 gamma) := by
  apply Bse.chMat_injective .PH
  rw [chMat_hole6, Bse.chMat_bsePoint, Bse.chMat_bsePoint, chMat_hole6, chMat_hole6]
  exact submatrix_ladder _ _ _

theorem diagEmbed_hole6 (cn : ν ≃ ν) (chi0 : ν → Bse.T4 o ℂ) :
    Bse.diagEmbed (fun m => hole4 (chi0 (cn m))) = hole6 cn (Bse.diagEmbed chi0) := by
  funext m m' a b c d
  simp only [Bse.diagEmbed, hole6, cn.injective.eq_iff]
  by_cases h : m = m'
  · rw [if_pos h, if_pos h]; rfl
  · rw [if_neg h, if_neg h]; rfl

theorem traceNu_hole6 (beta : ℂ) (cn : ν ≃ ν) (t : Bse.T6 ν o ℂ) : Bse.traceNu beta (hole6 cn t) = hole4 (Bse.traceNu beta t) := by
  funext a b c d
  simp only [Bse.traceNu, hole6, hole4]
  congr 1
  rw [← Equiv.sum_comp cn fun m => ∑ m', t m m' b a d c]
  exact Finset.sum_congr rfl fun m _ => Equiv.sum_comp cn fun m' => t (cn m) m' b a d c

/-- C129: the lattice Bethe-Salpeter equation of the holes and its frequency sum with the tail correction.  `cn w` is the map of
fermionic frequencies; it exists on the window of the vertex when the window is symmetric about `-ω / 2`. -/
theorem C129_bse {ranks : ℕ} (hr : 0 < ranks) (beta : ℂ) {mesh : List (K × W)} (hm : mesh.Nodup) {wkmesh : List (W × K)}
    (hwm : wkmesh.Nodup) (cn : W → ν ≃ ν) (tail : W → K → Bse.T4 o ℂ) (chi0 : W → ν → K → Bse.T4 o ℂ) (gamma : W → Bse.T6 ν o ℂ) :
    (∀ k w, Bse.chiqFromChi0qAndGamma (fun w m k => hole4 (chi0 w (cn w m) k)) (fun w => hole6 (cn w) (gamma w)) k w
      = hole6 (cn w) (Bse.chiqFromChi0qAndGamma chi0 gamma k w)) ∧
    (∀ p, Bse.chiqSumNuFromChi0qAndGamma ranks beta mesh (fun w m k => hole4 (chi0 w (cn w m) k)) (fun w => hole6 (cn w) (gamma w)) p
      = hole4 (Bse.chiqSumNuFromChi0qAndGamma ranks beta mesh chi0 gamma p)) ∧
    ∀ p, (Bse.solveLatticeBse ranks beta mesh wkmesh (fun w k => hole4 (tail w k)) (fun w m k => hole4 (chi0 w (cn w m) k))
        (fun w => hole6 (cn w) (gamma w))).1 p
      = hole4 ((Bse.solveLatticeBse ranks beta mesh wkmesh tail chi0 gamma).1 p) := by
  have h1 : ∀ k w, Bse.bsePoint (Bse.diagEmbed fun m => hole4 (chi0 w (cn w m) k)) (hole6 (cn w) (gamma w))
      = hole6 (cn w) (Bse.bsePoint (Bse.diagEmbed fun m => chi0 w m k) (gamma w)) := by
    intro k w
    rw [diagEmbed_hole6 (cn w) fun m => chi0 w m k, bsePoint_hole6]
  have h2 : ∀ p, Bse.chiqSumNuFromChi0qAndGamma ranks beta mesh (fun w m k => hole4 (chi0 w (cn w m) k))
      (fun w => hole6 (cn w) (gamma w)) p = hole4 (Bse.chiqSumNuFromChi0qAndGamma ranks beta mesh chi0 gamma p) := by
    intro p
    unfold Bse.chiqSumNuFromChi0qAndGamma
    rw [C02_distributedAssign ranks hr _ hm, C02_distributedAssign ranks hr _ hm]
    by_cases hp : p ∈ mesh
    · rw [if_pos hp, if_pos hp, h1, traceNu_hole6]
    · rw [if_neg hp, if_neg hp]
      rfl
  refine ⟨fun k w => h1 k w, h2, fun p => ?_⟩
  simp only [Bse.solveLatticeBse]
  funext a b c d
  simp only [Pi.add_apply, Pi.sub_apply, hole4]
  have h3 : Bse.chi0qSumNu ranks beta wkmesh (fun w m k => hole4 (chi0 w (cn w m) k)) (p.2, p.1) a b c d
      = Bse.chi0qSumNu ranks beta wkmesh chi0 (p.2, p.1) b a d c := by
    unfold Bse.chi0qSumNu
    rw [C02_distributedAssign ranks hr _ hwm, C02_distributedAssign ranks hr _ hwm]
    by_cases hp : (p.2, p.1) ∈ wkmesh
    · rw [if_pos hp, if_pos hp]
      dsimp only
      congr 1
      exact Equiv.sum_comp (cn p.2) fun m => chi0 p.2 m p.1 b a d c
    · rw [if_neg hp, if_neg hp]
      rfl
  have h4 := congrFun (congrFun (congrFun (congrFun (h2 p) a) b) c) d
  simp only [hole4] at h4 h3
  rw [h4, h3]

/-- C129: the irreducible vertex and the full vertex of the holes. -/
theorem C129_vertex (cn : W → ν ≃ ν) (chi0 chi : W → Bse.T6 ν o ℂ) (w : W) :
    Bse.solveLocalBse (fun w => hole6 (cn w) (chi0 w)) (fun w => hole6 (cn w) (chi w)) w
        = hole6 (cn w) (Bse.solveLocalBse chi0 chi w) ∧
      Bse.reducibleVertexF (fun w => hole6 (cn w) (chi0 w)) (fun w => hole6 (cn w) (chi w)) w
        = hole6 (cn w) (Bse.reducibleVertexF chi0 chi w) := by
  have hi : ∀ t : Bse.T6 ν o ℂ, Bse.inverse .PH (hole6 (cn w) t) = hole6 (cn w) (Bse.inverse .PH t) := by
    intro t
    apply Bse.chMat_injective .PH
    rw [chMat_hole6, Bse.chMat_inverse, Bse.chMat_inverse, chMat_hole6, Matrix.inv_submatrix_equiv]
  have hp : ∀ s t : Bse.T6 ν o ℂ, Bse.product .PH (hole6 (cn w) s) (hole6 (cn w) t) = hole6 (cn w) (Bse.product .PH s t) := by
    intro s t
    apply Bse.chMat_injective .PH
    rw [chMat_hole6, Bse.chMat_product, Bse.chMat_product, chMat_hole6, chMat_hole6, Matrix.submatrix_mul_equiv]
  constructor
  · simp only [Bse.solveLocalBse, Bse.inverseIw, hi]
    rfl
  · simp only [Bse.reducibleVertexF, Bse.productIw, Bse.inverseIw]
    rw [show hole6 (cn w) (chi w) - hole6 (cn w) (chi0 w) = hole6 (cn w) (chi w - chi0 w) from rfl, hi, hp, hp]

theorem scalarProduct_hole6 (cn : ν ≃ ν) (vL vR : ν → Bse.T4 o ℂ) (M : Bse.T6 ν o ℂ) :
    Bse.scalarProductPH (fun m => hole4 (vL (cn m))) (hole6 cn M) (fun m => hole4 (vR (cn m)))
      = hole4 (Bse.scalarProductPH vL M vR) := by
  have h : ∀ (L : Matrix (o × o) (ν × o × o) ℂ) (m : Matrix (ν × o × o) (ν × o × o) ℂ) (R : Matrix (ν × o × o) (o × o) ℂ),
      L.submatrix (Equiv.prodComm o o) (rowSwap cn) * m.submatrix (rowSwap cn) (rowSwap cn)
        * R.submatrix (rowSwap cn) (Equiv.prodComm o o) = (L * m * R).submatrix (Equiv.prodComm o o) (Equiv.prodComm o o) := by
    intro L m R
    rw [Matrix.submatrix_mul_equiv, Matrix.submatrix_mul_equiv]
  funext a b c d
  exact congrFun (congrFun (h (fun r c => vL c.1 c.2.1 c.2.2 r.2 r.1) (fun r c => M r.1 c.1 r.2.1 r.2.2 c.2.1 c.2.2)
    (fun r c => vR r.1 r.2.2 r.2.1 c.1 c.2)) (a, b)) (c, d)

/-- C129: the susceptibility of the dual Bethe-Salpeter equation of the holes. -/
theorem C129_dual {ranks : ℕ} (hr : 0 < ranks) {mesh : List (K × W)} (hm : mesh.Nodup) (cn : W → ν ≃ ν)
    (chi0 : W → ν → K → Bse.T4 o ℂ) (Fv : W → Bse.T6 ν o ℂ) (L : W → ν → Bse.T4 o ℂ) (imp : W → Bse.T4 o ℂ) (p : K × W) :
    Bse.solveLatticeDbse ranks mesh (fun w m k => hole4 (chi0 w (cn w m) k)) (fun w => hole6 (cn w) (Fv w))
        (fun w m => hole4 (L w (cn w m))) (fun w => hole4 (imp w)) p
      = hole4 (Bse.solveLatticeDbse ranks mesh chi0 Fv L imp p) := by
  unfold Bse.solveLatticeDbse Bse.chiqSumNuL
  rw [C02_distributedAssign ranks hr _ hm, C02_distributedAssign ranks hr _ hm]
  by_cases hp : p ∈ mesh
  · rw [if_pos hp, if_pos hp, diagEmbed_hole6 (cn p.2) fun m => chi0 p.2 m p.1, bsePoint_hole6, scalarProduct_hole6]
    rfl
  · rw [if_neg hp, if_neg hp]
    rfl

open Verif.Operators in
/-- C129: the interaction tensor of a self adjoint operator, written for holes, is its complex conjugate: for real interactions
nothing has to be changed. -/
theorem C129_tensor {ι : Type} [LinearOrder ι] (fs : List ι) (hnd : fs.Nodup) (x : Op ι) (hx : Canonical x)
    (hself : dagger x = x) (ts : List (Mono ι × ℂ)) (hts : Enumerates ts x) (U : Operators.T4 fs.length)
    (hU : getRpaTensor fs ts = .ok U) (a b c d : Fin fs.length) : hole4 U a b c d = (starRingEnd ℂ) (U a b c d) := by
  have h1 := (Herm.C113_tensor fs hnd x hx hself ts hts U hU b a d c).2
  have h2 := (Herm.C113_tensor fs hnd x hx hself ts hts U hU a b c d).1
  rw [h2, Complex.conj_conj]
  exact h1

end Verif.Mirror
