import Verif.Basis.Gw
import Verif.Basis.Response
import Verif.Basis.Pairing

/-!
# C104: where results depend on the choice of the orbital basis
-/

set_option linter.unusedSectionVars false

noncomputable section

namespace Verif.Basis

open Matrix Verif.Rpa Verif.Fourier

variable {o : Type*} [Fintype o] [DecidableEq o]

/-! ## Phases -/

theorem cj_diagonal (s : o → ℂ) : cj (Matrix.diagonal s) = Matrix.diagonal fun a => (starRingEnd ℂ) (s a) := by
  ext a b
  by_cases h : a = b
  · subst h; simp [cj]
  · simp [cj, Matrix.diagonal_apply_ne _ h]

theorem rot4_diagonal (s t u v : o → ℂ) (T : Bubble.T4 o) (a b c d : o) :
    rot4 (Matrix.diagonal s) (Matrix.diagonal t) (Matrix.diagonal u) (Matrix.diagonal v) T a b c d
      = s a * t b * u c * v d * T a b c d := by
  simp only [rot4]
  rw [Finset.sum_eq_single a (fun x _ hx => by simp [Matrix.diagonal_apply_ne' _ hx]) (by simp),
    Finset.sum_eq_single b (fun x _ hx => by simp [Matrix.diagonal_apply_ne' _ hx]) (by simp),
    Finset.sum_eq_single c (fun x _ hx => by simp [Matrix.diagonal_apply_ne' _ hx]) (by simp),
    Finset.sum_eq_single d (fun x _ hx => by simp [Matrix.diagonal_apply_ne' _ hx]) (by simp)]
  simp only [Matrix.diagonal_apply_eq]

theorem rotChi_diagonal (s : o → ℂ) (T : Bubble.T4 o) (a b c d : o) :
    rotChi (Matrix.diagonal s) T a b c d
      = (starRingEnd ℂ) (s a) * s b * (starRingEnd ℂ) (s c) * s d * T a b c d := by
  rw [rotChi, cj_diagonal, rot4_diagonal]

theorem rotV_diagonal (s : o → ℂ) (T : Bubble.T4 o) (a b c d : o) :
    rotV (Matrix.diagonal s) T a b c d
      = s a * (starRingEnd ℂ) (s b) * s c * (starRingEnd ℂ) (s d) * T a b c d := by
  rw [rotV, cj_diagonal, rot4_diagonal]

theorem unitary_diagonal (s : o → ℂ) (h : ∀ a, (starRingEnd ℂ) (s a) * s a = 1) : Unitary (Matrix.diagonal s) := by
  unfold Unitary
  rw [Matrix.diagonal_conjTranspose, Matrix.diagonal_mul_diagonal]
  have : (fun i => star s i * s i) = fun _ => 1 := funext h
  rw [this, Matrix.diagonal_one]

/-! ## Random phase approximation -/

/-- the last of three orbitals multiplied by `i` -/
def phase3 : Fin 3 → ℂ := ![1, 1, Complex.I]

theorem phase3_unitary : Unitary (Matrix.diagonal phase3) := by
  refine unitary_diagonal _ fun a => ?_
  fin_cases a <;> simp [phase3]

/-- tensor of the real hermitian interaction `n₀ (c₁† c₂) + h.c.` (up to normalisation) -/
def Ureal : Bubble.T4 (Fin 3) := fun a b c d =>
  (1 / 2) * (asym a c 0 1 * asym b d 0 2 + asym a c 0 2 * asym b d 0 1)

theorem Ureal_val : Ureal 0 0 1 2 = 1 / 2 := by simp [Ureal, asym]

/-- C104 violated: for an interaction with all symmetries of a hermitian Hamiltonian, real in the original basis, and
transformed like `get_rpa_tensor` transforms it, multiplying one orbital by `i` changes the susceptibility of
`solve_rpa_PH` from `χ₀ / (1 - 1/2)` to `χ₀ / (1 + 1/2)`. -/
theorem C104_rpa_violated : ∃ (S : Matrix (Fin 3) (Fin 3) ℂ) (chi0 U : Bubble.T4 (Fin 3)), Unitary S ∧
    (∀ a b c d, U c b a d = -U a b c d) ∧ (∀ a b c d, U a d c b = -U a b c d) ∧
    (∀ a b c d, U b a d c = star (U a b c d)) ∧ (∀ a b c d, star (U a b c d) = U a b c d) ∧
    IsUnit (1 - pairMat chi0 * pairMat U).det ∧ IsUnit (1 - pairMat (rotChi S chi0) * pairMat (rotChi S U)).det ∧
    rpaPoint (rotChi S chi0) (rotChi S U) ≠ rotChi S (rpaPoint chi0 U) := by
  have hreal : ∀ a b c d, star (Ureal a b c d) = Ureal a b c d := by
    intro a b c d
    have : ∀ x y p q, star (asym x y p q) = asym x y p q := by
      intro x y p q
      unfold asym
      split_ifs <;> simp
    simp only [Ureal, star_add, star_mul', this, star_div₀, star_one, star_ofNat]
  have hX : rotChi (Matrix.diagonal phase3) chiwit = Complex.I • chiwit := by
    funext a b c d
    rw [rotChi_diagonal]
    simp only [Pi.smul_apply, smul_eq_mul, chiwit]
    split_ifs with h
    · obtain ⟨rfl, rfl, rfl, rfl⟩ := h
      simp [phase3]
    · simp
  have hU : rotChi (Matrix.diagonal phase3) Ureal 0 0 1 2 = Complex.I * (1 / 2) := by
    rw [rotChi_diagonal, Ureal_val]
    simp [phase3]
  have hV : rotV (Matrix.diagonal phase3) Ureal 0 0 1 2 = -Complex.I * (1 / 2) := by
    rw [rotV_diagonal, Ureal_val]
    simp [phase3]
  have hsm : ∀ W : Bubble.T4 (Fin 3), pairMat (Complex.I • chiwit) * pairMat W = pairMat chiwit * pairMat (Complex.I • W) := by
    intro W
    have e1 : pairMat (Complex.I • chiwit) = Complex.I • pairMat chiwit := rfl
    have e2 : pairMat (Complex.I • W) = Complex.I • pairMat W := rfl
    rw [e1, e2, Matrix.smul_mul, Matrix.mul_smul]
  have h1 : IsUnit (1 - pairMat chiwit * pairMat Ureal).det := wit_unit _ (by rw [Ureal_val]; norm_num)
  have h2 : IsUnit (1 - pairMat (rotChi (Matrix.diagonal phase3) chiwit)
      * pairMat (rotChi (Matrix.diagonal phase3) Ureal)).det := by
    rw [hX, hsm]
    refine wit_unit _ ?_
    rw [Pi.smul_apply, Pi.smul_apply, Pi.smul_apply, Pi.smul_apply, hU, smul_eq_mul, ← mul_assoc, Complex.I_mul_I]
    norm_num
  refine ⟨Matrix.diagonal phase3, chiwit, Ureal, phase3_unitary, ?_, ?_, ?_, hreal, h1, h2, ?_⟩
  · intro a b c d
    simp only [Ureal, asym]
    ring_nf
    simp only [and_comm]
    ring
  · intro a b c d
    simp only [Ureal, asym]
    simp only [and_comm]
    ring
  · intro a b c d
    rw [hreal]
    simp only [Ureal]
    ring
  · intro h
    rw [C104_rpa_iff phase3_unitary _ _ h1 h2, hX] at h
    have e1 : pairMat (Complex.I • chiwit) = Matrix.single (1, 2) (0, 0) Complex.I := by
      change Complex.I • pairMat chiwit = _
      rw [pairMat_chiwit, Matrix.smul_single, smul_eq_mul, mul_one]
    rw [e1, Matrix.single_mul_mul_single, Matrix.single_mul_mul_single] at h
    have h3 := congrFun (congrFun h (1, 2)) (0, 0)
    rw [Matrix.single_apply_same, Matrix.single_apply_same] at h3
    have e3 : pairMat (rotChi (Matrix.diagonal phase3) Ureal) (0, 0) (1, 2) = Complex.I * (1 / 2) := hU
    have e4 : pairMat (rotV (Matrix.diagonal phase3) Ureal) (0, 0) (1, 2) = -Complex.I * (1 / 2) := hV
    rw [e3, e4] at h3
    have h4 : Complex.I * Complex.I * Complex.I = 0 := by linear_combination h3
    rw [Complex.I_mul_I] at h4
    simp at h4

/-- C104, partial: for real (orthogonal) rotations the two rules are the same, so `solve_rpa_PH` is independent of the
basis whichever rule produced the interaction.  Missing: complex rotations, see `C104_rpa_violated`. -/
theorem C104_rpa_real_partial {S : Matrix o o ℂ} (hS : Unitary S) (hreal : cj S = S) (X U : Bubble.T4 o) :
    rotV S U = rotChi S U ∧ rpaPoint (rotChi S X) (rotChi S U) = rotChi S (rpaPoint X U) := by
  have h : rotV S U = rotChi S U := by rw [rotV, rotChi, hreal]
  exact ⟨h, by rw [← h, rpaPoint_rot hS]⟩

/-! ## Pairing vertex -/

/-- the second of two orbitals multiplied by `i` -/
def phase2 : Fin 2 → ℂ := ![1, Complex.I]

theorem phase2_unitary : Unitary (Matrix.diagonal phase2) := by
  refine unitary_diagonal _ fun a => ?_
  fin_cases a <;> simp [phase2]

/-- a real interaction, symmetric in all indices: density assisted hopping -/
def Uhop : Bubble.T4 (Fin 2) := fun a b c d => if (a : ℕ) + b + c + d = 1 then 1 else 0

/-- C104 violated: already for vanishing susceptibilities the pairing vertices built from an interaction that is rotated
as `solve_rpa_PH` needs it are not the rotated vertices. -/
theorem C104_vertex_violated : ∃ (S : Matrix (Fin 2) (Fin 2) ℂ) (Ud Um : Bubble.T4 (Fin 2)), Unitary S ∧
    (∀ a b c d, star (Ud a b c d) = Ud a b c d ∧ Um a b c d = Ud a b c d) ∧
    Eliashberg.gammaSinglet (rotV S Ud) (rotV S Um) (Eliashberg.phiPoint (rotChi S 0) (rotV S Ud))
        (Eliashberg.phiPoint (rotChi S 0) (rotV S Um))
      ≠ rotChi S (Eliashberg.gammaSinglet Ud Um (Eliashberg.phiPoint 0 Ud) (Eliashberg.phiPoint 0 Um)) := by
  refine ⟨Matrix.diagonal phase2, Uhop, Uhop, phase2_unitary, ?_, ?_⟩
  · intro a b c d
    refine ⟨?_, rfl⟩
    unfold Uhop
    split_ifs <;> simp
  · intro h
    rw [(C104_vertex_iff phase2_unitary Uhop Uhop 0 0).1] at h
    have h1 := congrFun (congrFun (congrFun (congrFun h 0) 0) 0) 1
    rw [rotV_diagonal, rotChi_diagonal] at h1
    simp only [Pi.add_apply, Pi.smul_apply, smul_eq_mul, Uhop, phase2] at h1
    simp at h1
    have h2 := congrArg Complex.im h1
    norm_num at h2

/-! ## Dual Bethe-Salpeter equation -/

section scalar

variable {ν : Type*} [Fintype ν] [DecidableEq ν] {S : Matrix o o ℂ}

theorem scalarProduct_sum (vL : ν → Bubble.T4 o) (M : Bse.T6 ν o ℂ) (vR : ν → Bubble.T4 o) (a b c d : o) :
    Bse.scalarProductPH vL M vR a b c d = ∑ m, ∑ n, (pairMat (fun a b e f => vL n e f b a) * pairMat (M n m)
      * pairMat (fun g h c d => vR m h g c d)) (a, b) (c, d) := by
  have e0 : Bse.scalarProductPH vL M vR a b c d = ∑ x : ν × o × o, (∑ y : ν × o × o, vL y.1 y.2.1 y.2.2 b a
      * M y.1 x.1 y.2.1 y.2.2 x.2.1 x.2.2) * vR x.1 x.2.2 x.2.1 c d := rfl
  rw [e0, Fintype.sum_prod_type]
  refine Finset.sum_congr rfl fun m _ => ?_
  simp only [Matrix.mul_apply, pairMat, Fintype.sum_prod_type, Finset.sum_mul]
  calc ∑ x, ∑ y, ∑ n, ∑ e, ∑ f, vL n e f b a * M n m e f x y * vR m y x c d
      = ∑ p : o × o, ∑ n, ∑ e, ∑ f, vL n e f b a * M n m e f p.1 p.2 * vR m p.2 p.1 c d := by
        rw [Fintype.sum_prod_type]
    _ = ∑ n, ∑ p : o × o, ∑ e, ∑ f, vL n e f b a * M n m e f p.1 p.2 * vR m p.2 p.1 c d := Finset.sum_comm
    _ = _ := by simp only [Fintype.sum_prod_type]

/-- C104, partial: the contraction of the vertex with triangles on both sides is independent of the basis if the left
triangle is given in the transposed convention (rotated like an interaction).  Missing: the dual routine puts the same
triangle on both sides, see `C104_scalar_product_violated`. -/
theorem C104_scalar_product_partial (hS : Unitary S) (vL : ν → Bubble.T4 o) (M : Bse.T6 ν o ℂ) (vR : ν → Bubble.T4 o) :
    Bse.scalarProductPH (fun n => rotV S (vL n)) (rot6 S M) (fun n => rotChi S (vR n))
      = rotChi S (Bse.scalarProductPH vL M vR) := by
  have hL : ∀ v : Bubble.T4 o, pairMat (fun a b e f => rotV S v e f b a)
      = kr (cj S) S * pairMat (fun a b e f => v e f b a) * (kr S (cj S)).transpose := by
    intro v
    rw [← pairMat_rot4]
    congr 1
    funext a b e f
    simp only [rotV, rot4]
    rw [sum4_comm, Finset.sum_comm]
    exact Finset.sum_congr rfl fun _ _ => Finset.sum_congr rfl fun _ _ => Finset.sum_congr rfl fun _ _ =>
      Finset.sum_congr rfl fun _ _ => by ring
  have hR : ∀ v : Bubble.T4 o, pairMat (fun g h c d => rotChi S v h g c d)
      = kr S (cj S) * pairMat (fun g h c d => v h g c d) * (kr (cj S) S).transpose := by
    intro v
    rw [← pairMat_rot4]
    congr 1
    funext g h c d
    simp only [rotChi, rot4]
    rw [Finset.sum_comm]
    exact Finset.sum_congr rfl fun _ _ => Finset.sum_congr rfl fun _ _ => Finset.sum_congr rfl fun _ _ =>
      Finset.sum_congr rfl fun _ _ => by ring
  have hpt : ∀ n m, pairMat (fun a b e f => rotV S (vL n) e f b a) * pairMat (rot6 S M n m)
        * pairMat (fun g h c d => rotChi S (vR m) h g c d)
      = kr (cj S) S * (pairMat (fun a b e f => vL n e f b a) * pairMat (M n m)
        * pairMat (fun g h c d => vR m h g c d)) * (kr (cj S) S).transpose := by
    intro n m
    rw [hL, hR, rot6, pairMat_rotChi]
    set K := kr (cj S) S
    set J := kr S (cj S)
    set A := pairMat (fun a b e f => vL n e f b a)
    set C := pairMat (fun g h c d => vR m h g c d)
    have h1 : J.transpose * K = 1 := pair_cancel2 hS
    have h2 : K.transpose * J = 1 := pair_cancel1 hS
    calc K * A * Jᵀ * (K * pairMat (M n m) * Kᵀ) * (J * C * Kᵀ)
        = K * A * (Jᵀ * K) * pairMat (M n m) * (Kᵀ * J) * C * Kᵀ := by simp only [Matrix.mul_assoc]
      _ = _ := by rw [h1, h2, Matrix.mul_one, Matrix.mul_one]; simp only [Matrix.mul_assoc]
  have hs : ∀ (vL : ν → Bubble.T4 o) (M : Bse.T6 ν o ℂ) (vR : ν → Bubble.T4 o),
      pairMat (Bse.scalarProductPH vL M vR) = ∑ m, ∑ n, pairMat (fun a b e f => vL n e f b a) * pairMat (M n m)
        * pairMat (fun g h c d => vR m h g c d) := by
    intro vL M vR
    ext ⟨a, b⟩ ⟨c, d⟩
    simp only [Matrix.sum_apply]
    exact scalarProduct_sum vL M vR a b c d
  apply pairMat_injective
  rw [pairMat_rotChi, hs, hs, Matrix.mul_sum, Matrix.sum_mul]
  refine Finset.sum_congr rfl fun m _ => ?_
  rw [Matrix.mul_sum, Matrix.sum_mul]
  exact Finset.sum_congr rfl fun n _ => hpt n m

end scalar

/-- C104 violated: with the same triangle on both sides, as in the dual routine, the result for the rotated triangle and
vertex is not the rotated result. -/
theorem C104_scalar_product_violated : ∃ (S : Matrix (Fin 2) (Fin 2) ℂ) (L : Unit → Bubble.T4 (Fin 2))
    (M : Bse.T6 Unit (Fin 2) ℂ), Unitary S ∧
    Bse.scalarProductPH (fun n => rotChi S (L n)) (rot6 S M) (fun n => rotChi S (L n))
      ≠ rotChi S (Bse.scalarProductPH L M L) := by
  let T : Bubble.T4 (Fin 2) := fun a b c d => if a = 0 ∧ b = 0 ∧ d = 0 then 1 else 0
  let M0 : Bubble.T4 (Fin 2) := fun a b c d => if a = 0 ∧ b = 0 ∧ c = 0 ∧ d = 0 then 1 else 0
  refine ⟨Matrix.diagonal phase2, fun _ => T, fun _ _ => M0, phase2_unitary, fun h => ?_⟩
  have h1 := congrFun (congrFun (congrFun (congrFun h 0) 1) 0) 0
  have e1 : (fun _ : Unit => rotChi (Matrix.diagonal phase2) T) = fun _ a b c d =>
      if a = 0 ∧ b = 0 ∧ d = 0 then (starRingEnd ℂ) (phase2 c) else 0 := by
    funext _ a b c d
    rw [rotChi_diagonal]
    change _ * (if a = 0 ∧ b = 0 ∧ d = 0 then (1 : ℂ) else 0) = _
    split_ifs with hc
    · obtain ⟨rfl, rfl, rfl⟩ := hc
      simp [phase2]
    · simp
  have e2 : (rot6 (Matrix.diagonal phase2) fun _ _ => M0 : Bse.T6 Unit (Fin 2) ℂ) = fun _ _ => M0 := by
    funext _ _ a b c d
    rw [rot6, rotChi_diagonal]
    change _ * (if a = 0 ∧ b = 0 ∧ c = 0 ∧ d = 0 then (1 : ℂ) else 0) = if _ then _ else _
    split_ifs with hc
    · obtain ⟨rfl, rfl, rfl, rfl⟩ := hc
      simp [phase2]
    · simp
  rw [e1, e2, rotChi_diagonal] at h1
  rw [Bse.C23_scalar_product, Bse.C23_scalar_product] at h1
  simp [Fin.sum_univ_two, T, M0, phase2] at h1
  have h2 := congrArg Complex.im h1
  norm_num at h2

/-! ## Real time -/

/-- C104 violated: the real time bubble of rotated Green's functions is not the rotated bubble. -/
theorem C104_real_time_violated : ∃ (S : Matrix (Fin 2) (Fin 2) ℂ) (les gtr : Unit → Lat (fun _ : Fin 1 => 1) → Fin 2 → Fin 2 → ℂ),
    Unitary S ∧ Bubble.chi0Tr (fun t r => rotG S (les t r)) (fun t r => rotG S (gtr t r)) () 0
      ≠ rotChi S (Bubble.chi0Tr les gtr () 0) := by
  refine ⟨Matrix.diagonal phase2, fun _ _ a b => if a = 0 ∧ b = 0 then 1 else 0,
    fun _ _ a b => if a = 1 ∧ b = 0 then 1 else 0, phase2_unitary, fun h => ?_⟩
  rw [C104_real_time_partial] at h
  have h1 := congrFun (congrFun (congrFun (congrFun h 0) 1) 0) 0
  rw [rotChi_diagonal, cj_diagonal, rot4_diagonal] at h1
  simp [Bubble.chi0Tr, phase2] at h1
  have h2 := congrArg Complex.re h1
  norm_num at h2

/-! ## GW -/

/-- a rational rotation -/
def rot34 : Matrix (Fin 2) (Fin 2) ℂ := !![3 / 5, 4 / 5; -(4 / 5), 3 / 5]

theorem rot34_real : cj rot34 = rot34 := by
  ext a b
  fin_cases a <;> fin_cases b <;> simp [cj, rot34, map_ofNat, map_div₀]

theorem rot34_conj : rot34.conjTranspose = rot34.transpose := by
  rw [← Matrix.transpose_transpose rot34.conjTranspose, ← cj_eq, rot34_real]

theorem rot34_unitary : Unitary rot34 := by
  unfold Unitary
  rw [rot34_conj]
  ext a b
  fin_cases a <;> fin_cases b <;> simp [Matrix.mul_apply, Fin.sum_univ_two, rot34] <;> norm_num

/-- C104 violated: the default search range for the chemical potential depends on the basis: for the levels `-1` and `1`
it is `(-1, 1)` in the eigenbasis and `(-7/25, 24/25)` after a real rotation; the upper level is outside. -/
theorem C104_bracket_violated : ∃ (S e : Matrix (Fin 2) (Fin 2) ℂ), Unitary S ∧ cj S = S ∧ e.IsHermitian ∧
    Gw.defaultBracket (n := fun _ : Fin 1 => 1) (fun _ => e) = (-1, 1) ∧
    Gw.defaultBracket (n := fun _ : Fin 1 => 1) (fun _ => rotG S e) = (-7 / 25, 24 / 25) := by
  have key : ∀ (m : Matrix (Fin 2) (Fin 2) ℂ) (x y : ℝ), (∀ a b, x ≤ (m a b).re ∧ (m a b).re ≤ y) →
      (∃ a b, (m a b).re = x) → (∃ a b, (m a b).re = y) →
      Gw.defaultBracket (n := fun _ : Fin 1 => 1) (fun _ => m) = (x, y) := by
    rintro m x y hb ⟨a, b, hx⟩ ⟨c, d, hy⟩
    unfold Gw.defaultBracket
    refine Prod.ext (le_antisymm ?_ ?_) (le_antisymm ?_ ?_)
    · refine (ciInf_le (Set.finite_range _).bddBelow ((0, a, b) : Lat (fun _ : Fin 1 => 1) × Fin 2 × Fin 2)).trans ?_
      exact hx.le
    · exact le_ciInf fun p => (hb _ _).1
    · exact ciSup_le fun p => (hb _ _).2
    · refine le_trans ?_ (le_ciSup (Set.finite_range _).bddAbove ((0, c, d) : Lat (fun _ : Fin 1 => 1) × Fin 2 × Fin 2))
      exact hy.ge
  have hr : rotG rot34 (Matrix.diagonal ![-1, 1]) = !![7 / 25, 24 / 25; 24 / 25, -7 / 25] := by
    rw [rotG_eq, rot34_conj]
    ext a b
    fin_cases a <;> fin_cases b <;>
      simp [Matrix.mul_apply, Fin.sum_univ_two, rot34, Matrix.vecMul_diagonal] <;> norm_num
  have h7 : ((7 / 25 : ℂ)).re = 7 / 25 := by norm_num
  have h24 : ((24 / 25 : ℂ)).re = 24 / 25 := by norm_num
  refine ⟨rot34, Matrix.diagonal ![-1, 1], rot34_unitary, rot34_real, ?_, ?_, ?_⟩
  · refine Matrix.isHermitian_diagonal_of_self_adjoint _ ?_
    funext i
    fin_cases i <;> simp
  · refine key _ _ _ (fun a b => ?_) ⟨0, 0, by simp⟩ ⟨1, 1, by simp⟩
    fin_cases a <;> fin_cases b <;> simp
  · rw [hr]
    refine key _ _ _ (fun a b => ?_) ⟨1, 1, ?_⟩ ⟨0, 1, ?_⟩
    · fin_cases a <;> fin_cases b <;> simp [h7, h24, neg_div] <;> norm_num
    · simp [h7, neg_div]
    · simp [h24]

theorem eig_zero {eig : Lindhard.Eig o} (he : Lindhard.EigSpec eig) (l : o) : (eig 0).1 l = 0 := by
  obtain ⟨h1, h2, h3⟩ := he 0 Matrix.isHermitian_zero
  have h4 : Matrix.diagonal (fun i => ((eig 0).1 i : ℂ)) = 0 := by
    have h5 := congrArg (fun m => (eig 0).2.conjTranspose * m * (eig 0).2) h3
    rw [Matrix.mul_zero, Matrix.zero_mul] at h5
    refine Eq.trans ?_ h5.symm
    calc Matrix.diagonal (fun i => ((eig 0).1 i : ℂ))
        = ((eig 0).2.conjTranspose * (eig 0).2) * Matrix.diagonal (fun i => ((eig 0).1 i : ℂ))
          * ((eig 0).2.conjTranspose * (eig 0).2) := by rw [h1, Matrix.one_mul, Matrix.mul_one]
      _ = _ := by simp only [Matrix.mul_assoc]
  have h6 := congrFun (congrFun h4 l) l
  rw [Matrix.diagonal_apply_eq, Matrix.zero_apply] at h6
  exact_mod_cast h6

/-- Hubbard interaction inside each of two orbitals -/
def Uintra : Bubble.T4 (Fin 2) := fun a b c d => if a = b ∧ b = c ∧ c = d then 1 else 0

/-- C104 violated: the real frequency GW routines use only the elements `v_aabb` and the result depends on the basis,
already for a real rotation of two degenerate levels. -/
theorem C104_g0w_violated : ∃ (S : Matrix (Fin 2) (Fin 2) ℂ) (e : Matrix (Fin 2) (Fin 2) ℂ) (v : Bubble.T4 (Fin 2)),
    Unitary S ∧ cj S = S ∧ ∀ (eig : Lindhard.Eig (Fin 2)), Lindhard.EigSpec eig → ∀ beta : ℝ,
      Gw.g0wStatic (n := fun _ : Fin 1 => 1) eig 0 beta (fun _ : Lat (fun _ : Fin 1 => 1) => rotG S e) id [0]
          (fun _ => rotV S v) 0
        ≠ rotG S (Gw.g0wStatic (n := fun _ : Fin 1 => 1) eig 0 beta (fun _ : Lat (fun _ : Fin 1 => 1) => e) id [0]
          (fun _ => v) 0) := by
  refine ⟨rot34, 0, Uintra, rot34_unitary, rot34_real, fun eig he beta h => ?_⟩
  have hz : rotG rot34 0 = 0 := by rw [rotG_eq, Matrix.mul_zero, Matrix.zero_mul]
  have hval : ∀ (w : Bubble.T4 (Fin 2)) (a b : Fin 2),
      Gw.g0wStatic (n := fun _ : Fin 1 => 1) eig 0 beta (fun _ : Lat (fun _ : Fin 1 => 1) => (0 : Matrix (Fin 2) (Fin 2) ℂ))
        id [0] (fun _ => w) 0 a b = -(if a = b then (1 / 2) * w a a b b else 0) := by
    intro w a b
    have h0 : (0 : Matrix (Fin 2) (Fin 2) ℂ) - ((0 : ℝ) : ℂ) • 1 = 0 := by simp
    have hf : Lindhard.fermi (0 * beta) = 1 / 2 := by
      unfold Lindhard.fermi
      norm_num
    have h2 := congrFun (congrFun (he 0 Matrix.isHermitian_zero).2.1 a) b
    rw [Matrix.mul_apply, Matrix.one_apply] at h2
    simp only [Gw.g0wStatic, List.map_cons, List.map_nil, List.sum_cons, List.sum_nil, add_zero, h0, eig_zero he, hf]
    rw [Finset.sum_neg_distrib]
    congr 1
    have h3 : ∀ l, (eig 0).2 a l * (eig 0).2.conjTranspose l b * w a a b b * ((1 / 2 : ℝ) : ℂ) / (([0] : List (Lat (fun _ : Fin 1 => 1))).length : ℂ)
        = (eig 0).2 a l * (eig 0).2.conjTranspose l b * ((1 / 2) * w a a b b) := by
      intro l
      push_cast [List.length_cons, List.length_nil]
      ring
    simp only [h3]
    rw [← Finset.sum_mul, h2]
    split_ifs <;> ring
  rw [hz] at h
  have hsig : Gw.g0wStatic (n := fun _ : Fin 1 => 1) eig 0 beta
      (fun _ : Lat (fun _ : Fin 1 => 1) => (0 : Matrix (Fin 2) (Fin 2) ℂ)) id [0] (fun _ => Uintra) 0
      = ((-(1 / 2) : ℂ) • (1 : Matrix (Fin 2) (Fin 2) ℂ) : Matrix (Fin 2) (Fin 2) ℂ) := by
    funext a b
    rw [hval]
    fin_cases a <;> fin_cases b <;> simp [Uintra]
  rw [hsig] at h
  have h1 := congrFun (congrFun h 0) 0
  rw [hval, rotG_eq, Matrix.mul_smul, Matrix.mul_one, Matrix.smul_mul, rot34_unitary.right] at h1
  have hv : rotV rot34 Uintra 0 0 0 0 = 337 / 625 := by
    simp only [rotV, rot4, rot34_real]
    simp [Fin.sum_univ_two, Uintra, rot34]
    norm_num
  rw [hv] at h1
  norm_num at h1

end Verif.Basis
