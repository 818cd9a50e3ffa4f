import Verif.Gw.Spin
import Verif.Lindhard.Props
import Mathlib.Analysis.Matrix.Order

/-!
# C91: sign of the polarisation and screening
-/

set_option linter.unusedSectionVars false

noncomputable section

namespace Verif.Gw

open Complex Verif.Parallel Verif.Fourier Verif.Bubble Verif.Dyson Verif.Rpa
open Matrix (PosSemidef PosDef)
open scoped ComplexOrder

variable {d : ℕ} {n : Fin d → ℕ} [∀ i, NeZero (n i)] {o : Type} [Fintype o] [DecidableEq o]

/-- `bubble_PI_wk`, `/repo/python/triqs_tprf/gw.py:56-90`: momentum to real space, frequency to time, bubble
`chi0_tr_from_grt_PH`, and back. The parameters of the solver provide meshes and transforms. -/
def bubblePI (p : SolverParams n o) (g : G n o) : ℤ → Lat n → Bubble.T4 o := fun w => rToK fun r a b c d =>
  p.boseFreq (fun t => chi0tr p.ranks p.L p.lat (p.gTr g) r t a b c d) w

/-! ## Matrices -/

section
variable {m : Type*} [Fintype m] [DecidableEq m]

open scoped MatrixOrder in
theorem exists_root {V : Matrix m m ℂ} (hV : V.PosSemidef) : ∃ B : Matrix m m ℂ, V = B.conjTranspose * B := by
  obtain ⟨B, hB⟩ := CStarAlgebra.nonneg_iff_eq_star_mul_self.mp hV.nonneg
  exact ⟨B, hB⟩

/-- repulsion screened by a polarisation of negative sign: `0 ≤ W ≤ V`, without any instability -/
theorem screen_psd (V Q : Matrix m m ℂ) (hV : V.PosSemidef) (hQ : Q.PosSemidef) :
    IsUnit (1 + Q * V).det ∧ (V * (1 + Q * V)⁻¹).PosSemidef ∧ (V - V * (1 + Q * V)⁻¹).PosSemidef := by
  obtain ⟨B, rfl⟩ := exists_root hV
  set M := B * Q * B.conjTranspose with hM
  have hMp : M.PosSemidef := hQ.mul_mul_conjTranspose_same B
  have h1M : (1 + M).PosDef := PosDef.one.add_posSemidef hMp
  have hu : IsUnit (1 + M).det := (Matrix.isUnit_iff_isUnit_det _).1 h1M.isUnit
  have hdet : (1 + Q * (B.conjTranspose * B)).det = (1 + M).det := by
    rw [← Matrix.mul_assoc, Matrix.det_one_add_mul_comm, hM, Matrix.mul_assoc]
  have hu' : IsUnit (1 + Q * (B.conjTranspose * B)).det := by rwa [hdet]
  have hpush : B * (1 + Q * (B.conjTranspose * B))⁻¹ = (1 + M)⁻¹ * B := by
    refine push_rect _ _ _ ?_ hu hu'
    rw [hM, Matrix.add_mul, Matrix.mul_add, Matrix.one_mul, Matrix.mul_one]
    simp only [Matrix.mul_assoc]
  have hW : B.conjTranspose * B * (1 + Q * (B.conjTranspose * B))⁻¹ = B.conjTranspose * (1 + M)⁻¹ * B := by
    rw [Matrix.mul_assoc, hpush, Matrix.mul_assoc]
  refine ⟨hu', ?_, ?_⟩
  · rw [hW]
    exact h1M.inv.posSemidef.conjTranspose_mul_mul_same B
  · rw [hW]
    have hX : (1 - (1 + M)⁻¹ : Matrix m m ℂ).PosSemidef := by
      have e : (1 - (1 + M)⁻¹ : Matrix m m ℂ) = ((1 + M)⁻¹).conjTranspose * (M + M.conjTranspose * M) * (1 + M)⁻¹ := by
        have hh : ((1 + M)⁻¹).conjTranspose = (1 + M)⁻¹ := h1M.inv.isHermitian
        rw [hh, hMp.isHermitian.eq, show M + M * M = (1 + M) * M by noncomm_ring, ← Matrix.mul_assoc,
          Matrix.nonsing_inv_mul _ hu, Matrix.one_mul]
        calc (1 - (1 + M)⁻¹ : Matrix m m ℂ) = (1 + M) * (1 + M)⁻¹ - (1 + M)⁻¹ := by rw [Matrix.mul_nonsing_inv _ hu]
          _ = M * (1 + M)⁻¹ := by noncomm_ring
      rw [e]
      exact (hMp.add (Matrix.posSemidef_conjTranspose_mul_self M)).conjTranspose_mul_mul_same _
    have : B.conjTranspose * B - B.conjTranspose * (1 + M)⁻¹ * B = B.conjTranspose * (1 - (1 + M)⁻¹) * B := by
      rw [Matrix.mul_sub, Matrix.sub_mul, Matrix.mul_one]
    rw [this]
    exact hX.conjTranspose_mul_mul_same B

/-- the opposite sign: below the instability the interaction is enhanced, `V ≤ W` -/
theorem enhance_psd (V Q : Matrix m m ℂ) (hV : V.PosDef) (hQ : Q.PosSemidef) (hs : (V⁻¹ - Q).PosDef) :
    IsUnit (1 - Q * V).det ∧ (V * (1 - Q * V)⁻¹ - V).PosSemidef := by
  have hVu : IsUnit V.det := (Matrix.isUnit_iff_isUnit_det _).1 hV.isUnit
  have hSu : IsUnit (V⁻¹ - Q).det := (Matrix.isUnit_iff_isUnit_det _).1 hs.isUnit
  have e1 : 1 - Q * V = (V⁻¹ - Q) * V := by rw [Matrix.sub_mul, Matrix.nonsing_inv_mul _ hVu]
  have hu : IsUnit (1 - Q * V).det := by
    rw [e1, Matrix.det_mul]
    exact hSu.mul hVu
  have hW : V * (1 - Q * V)⁻¹ = (V⁻¹ - Q)⁻¹ := by
    rw [e1, Matrix.mul_inv_rev, ← Matrix.mul_assoc, Matrix.mul_nonsing_inv _ hVu, Matrix.one_mul]
  refine ⟨hu, ?_⟩
  rw [hW]
  set W := (V⁻¹ - Q)⁻¹ with hWd
  have a1 : (V⁻¹ - Q) * W = 1 := Matrix.mul_nonsing_inv _ hSu
  have a2 : W * (V⁻¹ - Q) = 1 := Matrix.nonsing_inv_mul _ hSu
  have b1 : W = V + V * Q * W := by
    have : V * ((V⁻¹ - Q) * W) = V := by rw [a1, Matrix.mul_one]
    rw [← Matrix.mul_assoc, Matrix.mul_sub, Matrix.mul_nonsing_inv _ hVu, Matrix.sub_mul, Matrix.one_mul] at this
    rw [← sub_eq_iff_eq_add]
    exact this
  have b2 : W = V + W * Q * V := by
    have : (W * (V⁻¹ - Q)) * V = V := by rw [a2, Matrix.one_mul]
    rw [Matrix.mul_assoc, Matrix.sub_mul, Matrix.nonsing_inv_mul _ hVu, Matrix.mul_sub, Matrix.mul_one,
      ← Matrix.mul_assoc] at this
    rw [← sub_eq_iff_eq_add]
    exact this
  have e : W - V = V.conjTranspose * Q * V + (Q * V).conjTranspose * W * (Q * V) := by
    rw [Matrix.conjTranspose_mul, hQ.isHermitian.eq, hV.isHermitian.eq]
    calc W - V = V * Q * W := by rw [sub_eq_iff_eq_add, add_comm]; exact b1
      _ = V * Q * (V + W * Q * V) := by rw [← b2]
      _ = V * Q * V + V * Q * W * (Q * V) := by noncomm_ring
  rw [e]
  exact (hQ.conjTranspose_mul_mul_same V).add (hs.inv.posSemidef.conjTranspose_mul_mul_same _)

end

/-! ## Interactions between densities -/

/-- `U_ac n_a n_c` as a tensor -/
def densT (U : Matrix o o ℂ) : Bubble.T4 o := fun a b c d => if a = b ∧ c = d then U a c else 0

/-- elements of a bubble between densities -/
def densP (P : Bubble.T4 o) : Matrix o o ℂ := Matrix.of fun a c => P a a c c

/-- pairs with equal indices -/
def densPair : Matrix (o × o) o ℂ := fun x y => if x.1 = y ∧ x.2 = y then 1 else 0

theorem densT_pair (U : Matrix o o ℂ) : pairMat (densT U) = densPair * U * densPair.transpose := by
  ext ⟨a, b⟩ ⟨c, e⟩
  simp only [pairMat, densT, densPair, Matrix.mul_apply, Matrix.transpose_apply, ite_and, ite_mul, mul_ite, zero_mul,
    one_mul, mul_zero, mul_one, Finset.sum_ite_eq, Finset.mem_univ, if_true, eq_comm]
  split_ifs <;> rfl

theorem densP_pair (P : Bubble.T4 o) : densPair.transpose * pairMat P * densPair = densP P := by
  ext a c
  simp only [pairMat, densP, densPair, Matrix.mul_apply, Matrix.transpose_apply, ite_and, ite_mul, mul_ite, zero_mul,
    one_mul, mul_zero, mul_one, Finset.sum_ite_eq, Finset.sum_ite_eq', Finset.mem_univ, if_true, Fintype.sum_prod_type,
    Finset.sum_ite_irrel, Finset.sum_const_zero, Matrix.of_apply]

theorem dens_det {l m : Type*} [Fintype l] [DecidableEq l] [Fintype m] [DecidableEq m] (A : Matrix l m ℂ)
    (Q : Matrix l l ℂ) (U : Matrix m m ℂ) :
    (1 - Q * (A * U * A.transpose)).det = (1 - A.transpose * Q * A * U).det := by
  rw [show Q * (A * U * A.transpose) = (Q * A * U) * A.transpose by simp only [Matrix.mul_assoc],
    Matrix.det_one_sub_mul_comm]
  simp only [Matrix.mul_assoc]

/-- the screened interaction between densities stays one -/
theorem screened_dens (P : Bubble.T4 o) (U : Matrix o o ℂ) :
    screenedOptPoint P (densT U) = densT (U * (1 - densP P * U)⁻¹) := by
  rw [C17_paths_agree]
  have hinj : Function.Injective (pairMat : Bubble.T4 o → _) := fun x y h => by
    funext a b c d
    exact congrFun (congrFun h (a, b)) (c, d)
  apply hinj
  rw [densT_pair, screenedBubblePoint, pairMat_matTensor, ← densP_pair, densT_pair]
  set A := (densPair : Matrix (o × o) o ℂ)
  set Q := pairMat P
  have hdet : (1 - Q * (A * U * A.transpose)).det = (1 - A.transpose * Q * A * U).det := by
    exact dens_det A Q U
  by_cases h : IsUnit (1 - A.transpose * Q * A * U).det
  · have h' : IsUnit (1 - Q * (A * U * A.transpose)).det := by rwa [hdet]
    have hpush : A.transpose * (1 - Q * (A * U * A.transpose))⁻¹ = (1 - A.transpose * Q * A * U)⁻¹ * A.transpose := by
      refine push_rect _ _ _ ?_ h h'
      rw [Matrix.sub_mul, Matrix.mul_sub, Matrix.one_mul, Matrix.mul_one]
      simp only [Matrix.mul_assoc]
    rw [Matrix.mul_assoc (A * U), hpush]
    simp only [Matrix.mul_assoc]
  · have h' : ¬ IsUnit (1 - Q * (A * U * A.transpose)).det := by rwa [hdet]
    rw [Matrix.nonsing_inv_apply_not_isUnit _ h, Matrix.nonsing_inv_apply_not_isUnit _ h']
    simp

/-! ## C91 -/

variable {p : SolverParams n o}

/-- C91 (sign): the polarisation of the solver is minus the helper `bubble_PI_wk`. -/
theorem C91_sign (hnw : p.nw ≠ 1) (g : G n o) (w : ℤ) (k : Lat n) : p.polarization g w k = -bubblePI p g w k := by
  unfold SolverParams.polarization SolverParams.chi0 bubblePI
  rw [if_neg hnw]

/-- C91 (screening): for a positive semidefinite interaction between densities and a polarisation whose elements between
densities are negative semidefinite, the screened interaction is one between densities, and lies between zero and the
bare one; the equation for it is regular. -/
theorem C91_screening (P : Bubble.T4 o) (U : Matrix o o ℂ) (hU : U.PosSemidef) (hP : (-densP P).PosSemidef) :
    IsUnit (1 - pairMat P * pairMat (densT U)).det ∧ ∃ W : Matrix o o ℂ, screenedOptPoint P (densT U) = densT W ∧
      W.PosSemidef ∧ (U - W).PosSemidef := by
  obtain ⟨h1, h2, h3⟩ := screen_psd U (-densP P) hU hP
  have e : (1 - densP P * U : Matrix o o ℂ) = 1 + -densP P * U := by rw [Matrix.neg_mul, sub_eq_add_neg]
  refine ⟨?_, U * (1 - densP P * U)⁻¹, screened_dens P U, ?_, ?_⟩
  · rw [densT_pair, dens_det, densP_pair, e]
    exact h1
  · rw [e]; exact h2
  · rw [e]; exact h3

/-- the weight of a pair of levels is not negative at zero frequency -/
theorem totalFactor_nonneg (tol beta : ℝ) (hb : 0 ≤ beta) (x y : ℝ) : 0 ≤ Lindhard.totalFactor tol beta 0 x y := by
  unfold Lindhard.totalFactor
  dsimp only
  split_ifs with h
  · rw [Complex.zero_le_real]
    positivity
  · rw [zero_add, ← Complex.ofReal_div, Complex.zero_le_real]
    rcases le_total x y with hxy | hxy
    · refine div_nonneg ?_ (by linarith)
      have := Lindhard.C20_fermi_strictAnti.antitone (mul_le_mul_of_nonneg_right hxy hb)
      linarith
    · refine div_nonneg_of_nonpos ?_ (by linarith)
      have := Lindhard.C20_fermi_strictAnti.antitone (mul_le_mul_of_nonneg_right hxy hb)
      linarith

/-- C91 (Lindhard): the static Lindhard function is positive semidefinite between densities, for every dispersion. -/
theorem C91_lindhard (ranks : ℕ) (hr : 0 < ranks) (eig : Lindhard.Eig o) (tol beta mu : ℝ) (hb : 0 ≤ beta)
    (kmesh : List (Lat n)) (hc : Complete kmesh) (e : Lat n → Matrix o o ℂ) (q : Lat n) :
    (densP (Lindhard.lindhard ranks eig tol beta mu kmesh e 0 q)).PosSemidef := by
  rw [Lindhard.lindhard_eq ranks hr eig tol beta mu kmesh hc.1 hc.2 e 0 q]
  have hterm : ∀ k, (densP (Lindhard.dbl (Lindhard.sys eig mu e k) (Lindhard.sys eig mu e (k + q))
      (Lindhard.totalFactor tol beta 0))).PosSemidef := by
    intro k
    set x := Lindhard.sys eig mu e k
    set y := Lindhard.sys eig mu e (k + q)
    have : densP (Lindhard.dbl x y (Lindhard.totalFactor tol beta 0)) = ∑ i, ∑ j,
        Lindhard.totalFactor tol beta 0 (x.1 i) (y.1 j) • Matrix.vecMulVec (fun a => x.2 a i * star (y.2 a j))
          (star fun a => x.2 a i * star (y.2 a j)) := by
      ext a c
      simp only [densP, Lindhard.dbl, Matrix.of_apply, Matrix.sum_apply, Matrix.smul_apply, Matrix.vecMulVec_apply,
        Pi.star_apply, Matrix.conjTranspose_apply, smul_eq_mul, star_mul', star_star]
      refine Finset.sum_congr rfl fun i _ => Finset.sum_congr rfl fun j _ => ?_
      ring
    rw [this]
    refine Matrix.posSemidef_sum _ fun i _ => Matrix.posSemidef_sum _ fun j _ => ?_
    exact (Matrix.posSemidef_vecMulVec_self_star _).smul (totalFactor_nonneg tol beta hb _ _)
  have hsum : densP ((Fintype.card (Lat n) : ℂ)⁻¹ • ∑ k, Lindhard.dbl (Lindhard.sys eig mu e k)
      (Lindhard.sys eig mu e (k + q)) (Lindhard.totalFactor tol beta 0))
      = (Fintype.card (Lat n) : ℂ)⁻¹ • ∑ k, densP (Lindhard.dbl (Lindhard.sys eig mu e k)
      (Lindhard.sys eig mu e (k + q)) (Lindhard.totalFactor tol beta 0)) := by
    ext a c
    simp only [densP, Matrix.of_apply, Matrix.smul_apply, Matrix.sum_apply, Pi.smul_apply, Finset.sum_apply]
  rw [hsum]
  refine (Matrix.posSemidef_sum _ fun k _ => hterm k).smul ?_
  rw [← Complex.ofReal_natCast, ← Complex.ofReal_inv, Complex.zero_le_real]
  positivity

/-- C91 (screening by the Lindhard function): with minus the static Lindhard function as polarisation `0 ≤ W ≤ V`. -/
theorem C91_lindhard_screens (ranks : ℕ) (hr : 0 < ranks) (eig : Lindhard.Eig o) (tol beta mu : ℝ) (hb : 0 ≤ beta)
    (kmesh : List (Lat n)) (hc : Complete kmesh) (e : Lat n → Matrix o o ℂ) (q : Lat n) (U : Matrix o o ℂ)
    (hU : U.PosSemidef) : ∃ W : Matrix o o ℂ,
      screenedOptPoint (-Lindhard.lindhard ranks eig tol beta mu kmesh e 0 q) (densT U) = densT W ∧
        W.PosSemidef ∧ (U - W).PosSemidef := by
  refine (C91_screening _ U hU ?_).2
  have : -densP (-Lindhard.lindhard ranks eig tol beta mu kmesh e 0 q)
      = densP (Lindhard.lindhard ranks eig tol beta mu kmesh e 0 q) := by
    ext a c
    simp [densP]
  rw [this]
  exact C91_lindhard ranks hr eig tol beta mu hb kmesh hc e q

/-- C91 (opposite sign): with the Lindhard function itself as polarisation the interaction is enhanced, `V ≤ W`, for
every dispersion and every interaction below the instability. -/
theorem C91_lindhard_enhances (ranks : ℕ) (hr : 0 < ranks) (eig : Lindhard.Eig o) (tol beta mu : ℝ) (hb : 0 ≤ beta)
    (kmesh : List (Lat n)) (hc : Complete kmesh) (e : Lat n → Matrix o o ℂ) (q : Lat n) (U : Matrix o o ℂ)
    (hU : U.PosDef) (hs : (U⁻¹ - densP (Lindhard.lindhard ranks eig tol beta mu kmesh e 0 q)).PosDef) :
    ∃ W : Matrix o o ℂ, screenedOptPoint (Lindhard.lindhard ranks eig tol beta mu kmesh e 0 q) (densT U) = densT W ∧
      (W - U).PosSemidef :=
  ⟨_, screened_dens _ U, (enhance_psd U _ hU (C91_lindhard ranks hr eig tol beta mu hb kmesh hc e q) hs).2⟩

/-- Lindhard function of a level at the Fermi energy -/
theorem lindhard_level (eig : Lindhard.Eig (Fin 1)) (hs : Lindhard.EigSpec eig) (tol : ℝ) (ht : 0 < tol) (q : L1) :
    Lindhard.lindhard 1 eig tol 1 0 [0] (fun _ : L1 => (0 : Matrix (Fin 1) (Fin 1) ℂ)) 0 q 0 0 0 0 = 1 / 4 := by
  have hl := (atom_good 1 0 1 0 (0, 0) noBrent).lat
  have hl : Complete ([0] : List L1) := hl
  rw [Lindhard.lindhard_eq 1 one_pos eig tol 1 0 [0] hl.1 hl.2, card_L1, Fintype.sum_unique]
  have h0 : ((0 : Matrix (Fin 1) (Fin 1) ℂ) - ((0 : ℝ) : ℂ) • 1) = 0 := by simp
  have hh : (0 : Matrix (Fin 1) (Fin 1) ℂ).IsHermitian := by simp [Matrix.IsHermitian]
  have := Lindhard.one_band_dbl hs hh hh 0 0 (by simp) (by simp) (Lindhard.totalFactor tol 1 0)
  simp only [Lindhard.sys, h0, Pi.smul_apply, this]
  simp [Lindhard.totalFactor, ht]

/-- C91 (as documented) is violated: the header calls the argument "polarization bubble", the Lindhard routine and
`bubble_PI_wk` are documented as the particle-hole bubble, and the tests pass the former to the routine for `W`. For a
level at the Fermi energy, `β = V = 1`, this gives `W = 4/3 > V`; with the sign that the solver uses `W = 4/5 < V`. -/
theorem C91_documented_violated (eig : Lindhard.Eig (Fin 1)) (hs : Lindhard.EigSpec eig) (tol : ℝ) (ht : 0 < tol)
    (q : L1) :
    screenedOptPoint (Lindhard.lindhard 1 eig tol 1 0 [0] (fun _ : L1 => 0) 0 q) (fun _ _ _ _ => 1) 0 0 0 0 = 4 / 3 ∧
    screenedOptPoint (-Lindhard.lindhard 1 eig tol 1 0 [0] (fun _ : L1 => 0) 0 q) (fun _ _ _ _ => 1) 0 0 0 0
      = 4 / 5 := by
  have hV : (fun _ _ _ _ => 1 : Bubble.T4 (Fin 1)) = densT (1 : Matrix (Fin 1) (Fin 1) ℂ) := by
    funext a b c d
    rw [Subsingleton.elim a 0, Subsingleton.elim b 0, Subsingleton.elim c 0, Subsingleton.elim d 0]
    simp [densT]
  have hl := lindhard_level eig hs tol ht q
  have inv1 : ∀ M : Matrix (Fin 1) (Fin 1) ℂ, M⁻¹ 0 0 = (M 0 0)⁻¹ := fun M => by
    rw [Matrix.inv_subsingleton, Ring.inverse_eq_inv']
    simp [Matrix.diagonal]
  rw [hV, screened_dens, screened_dens]
  constructor
  · simp only [densT, and_self, if_true, Matrix.one_mul, Matrix.mul_one, inv1, Matrix.sub_apply, Matrix.one_apply_eq,
      densP, Matrix.of_apply, hl]
    norm_num
  · simp only [densT, and_self, if_true, Matrix.one_mul, Matrix.mul_one, inv1, Matrix.sub_apply, Matrix.one_apply_eq,
      densP, Matrix.of_apply, Pi.neg_apply, hl]
    norm_num

/-- hypotheses of `C91_screening` and `C91_lindhard_enhances`: the same level -/
example (eig : Lindhard.Eig (Fin 1)) (hs : Lindhard.EigSpec eig) (tol : ℝ) (ht : 0 < tol) (q : L1) :
    Complete ([0] : List L1) ∧ (1 : Matrix (Fin 1) (Fin 1) ℂ).PosDef ∧
    ((1 : Matrix (Fin 1) (Fin 1) ℂ)⁻¹ - densP (Lindhard.lindhard 1 eig tol 1 0 [0] (fun _ : L1 => 0) 0 q)).PosDef := by
  refine ⟨(atom_good 1 0 1 0 (0, 0) noBrent).lat, PosDef.one, ?_⟩
  have : (1 : Matrix (Fin 1) (Fin 1) ℂ)⁻¹ - densP (Lindhard.lindhard 1 eig tol 1 0 [0] (fun _ : L1 => 0) 0 q)
      = Matrix.diagonal fun _ => (3 / 4 : ℂ) := by
    ext a c
    rw [Subsingleton.elim a 0, Subsingleton.elim c 0]
    simp only [inv_one, Matrix.sub_apply, Matrix.one_apply_eq, densP, Matrix.of_apply, lindhard_level eig hs tol ht q,
      Matrix.diagonal_apply_eq]
    norm_num
  rw [this]
  refine PosDef.diagonal fun _ => ?_
  have : (3 / 4 : ℂ) = ((3 / 4 : ℝ) : ℂ) := by push_cast; rfl
  rw [this, Complex.zero_lt_real]
  norm_num

end Verif.Gw
