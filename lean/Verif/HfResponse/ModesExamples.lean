import Verif.HfResponse.ModesStability
import Verif.HfResponse.Examples
import Mathlib.Data.List.Sort

/-!
# The order of the modes, and the half filled Hubbard atom as a concrete case of C103
-/

noncomputable section

namespace Verif.HfResponse

open Matrix Filter Topology
open scoped Matrix.Norms.Operator ComplexOrder

variable {n : ℕ} {κ : Type*} [Fintype κ]

set_option linter.unusedSectionVars false

/-- C103 (order): below all instabilities, when every eigenvalue of `chi0 U` has a real part less than one, the
modes are listed in increasing order, so that the last one is the most enhanced. -/
theorem C103_order {eigvals : Matrix (Fin n × Fin n) (Fin n × Fin n) ℂ → List ℂ} (hev : EigvalsSpec eigvals)
    {sorted : List ℂ → List ℂ} (hso : ArgsortSpec sorted) (U chi0 : Operators.T4 n)
    (h1 : ∀ z ∈ (toMat chi0 * toMat U).charpoly.roots, z.re < 1) :
    ∃ l : List ℝ, modeDecomposition eigvals sorted U chi0 = l.map some ∧ l.Pairwise (· ≤ ·) := by
  set L := sorted (eigvals (toMat chi0 * toMat U)) with hL
  have hlt : ∀ z ∈ L, z.re < 1 := by
    intro z hz
    refine h1 z ?_
    rw [← hev (toMat chi0 * toMat U), Multiset.mem_coe]
    exact (hso _).1.mem_iff.1 hz
  refine ⟨L.map fun z => 1 / (1 - z.re), ?_, ?_⟩
  · simp only [modeDecomposition, ← hL, List.map_map]
    refine List.map_congr_left fun z hz => ?_
    have : 1 - z.re ≠ 0 := by linarith [hlt z hz]
    simp only [Function.comp, recip, if_neg this]
  · rw [List.pairwise_map]
    refine (hso _).2.imp_of_mem fun {x y} hx hy hxy => ?_
    have := hlt x hx
    have := hlt y hy
    exact one_div_le_one_div_of_le (by linarith) (by linarith)

/-- Functions meeting the specifications of `np.linalg.eigvals` and `np.argsort` exist. -/
theorem exists_eigvals {I : Type*} [Fintype I] [DecidableEq I] : ∃ f : Matrix I I ℂ → List ℂ, EigvalsSpec f :=
  ⟨fun M => M.charpoly.roots.toList, fun _ => Multiset.coe_toList _⟩

theorem exists_argsort : ∃ f : List ℂ → List ℂ, ArgsortSpec f := by
  refine ⟨fun l => l.insertionSort fun x y => x.re ≤ y.re, fun l => ⟨List.perm_insertionSort _ l, ?_⟩⟩
  have : Std.Total fun x y : ℂ => x.re ≤ y.re := ⟨fun x y => le_total x.re y.re⟩
  have : IsTrans ℂ fun x y : ℂ => x.re ≤ y.re := ⟨fun _ _ _ => le_trans⟩
  exact List.pairwise_insertionSort _ l

/-- solver of a half filled Hubbard atom at unit interaction and inverse temperature `beta` -/
def hubAtom (beta : ℝ) : Solver 2 (Fin 1) :=
  { beta := beta, mu := 1 / 2, ekMF := fun _ => (1 / 2 : ℂ) • 1, U := hubTensor }

theorem hubAtom_hermitian (beta : ℝ) : ∀ k, ((hubAtom beta).ekMF k).IsHermitian := by
  intro k
  simp [hubAtom, Matrix.IsHermitian, Matrix.conjTranspose_smul]

theorem hubAtom_real (beta : ℝ) : ∀ k a b, ((hubAtom beta).ekMF k a b).im = 0 := by
  intro k a b
  simp only [hubAtom, Matrix.smul_apply, Matrix.one_apply]
  split_ifs <;> simp

theorem hubTensor_symm : ∀ a b c d, hubTensor c d a b = hubTensor a b c d := by
  intro a b c d
  fin_cases a <;> fin_cases b <;> fin_cases c <;> fin_cases d <;> simp [hubTensor]

theorem hubTensor_conj : ∀ a b c d, (starRingEnd ℂ) (hubTensor a b c d) = hubTensor b a d c := by
  intro a b c d
  fin_cases a <;> fin_cases b <;> fin_cases c <;> fin_cases d <;> simp [hubTensor]

theorem hubAtom_selfConsistent (beta : ℝ) : SelfConsistent (κ := Fin 1) (hubAtom beta).beta (hubAtom beta).mu
    (fun _ => 0) (hubAtom beta).U 0 ((1 / 2 : ℂ) • 1) := by
  unfold SelfConsistent
  have : HartreeFock.meanField (hubAtom beta).U ((1 / 2 : ℂ) • 1) = (1 / 2 : ℂ) • 1 := hub_meanField _
  simp only [this, Finset.univ_unique, Finset.sum_const, Finset.card_singleton, one_smul,
    Fintype.card_unique, Nat.cast_one, inv_one, zero_add, add_zero]
  have h1 : (1 / 2 : ℂ) • (1 : Matrix (Fin 2) (Fin 2) ℂ) - ((hubAtom beta).mu : ℂ) • 1 = ((0 : ℝ) : ℂ) • 1 := by
    rw [← sub_smul]
    congr 1
    simp [hubAtom]
  rw [h1, fermiMatrix_scalar]
  congr 1
  simp [HartreeFock.fermi]
  norm_num

theorem hubAtom_chi0Lim (beta : ℝ) (x y c d : Fin 2) :
    chi0Lim (baseInit (hubAtom beta) 0) x y c d = if c = y ∧ d = x then (beta : ℂ) / 4 else 0 := by
  simp only [chi0Lim, Finset.univ_unique, Finset.sum_singleton, Fintype.card_unique, Nat.cast_one, div_one]
  have : (baseInit (hubAtom beta) 0).ek default = 0 := by simp [baseInit, hubAtom]
  rw [this, dFermi_zero]
  simp only [Matrix.smul_apply, unit, smul_eq_mul, baseInit, hubAtom]
  split_ifs <;> (simp; try ring)

/-- the matrix `chi0 U` of the atom -/
theorem hubAtom_product (beta : ℝ) (P Q : Fin 2 × Fin 2) :
    (toMat (chi0Lim (baseInit (hubAtom beta) 0)) * toMat hubTensor) P Q
      = (beta : ℂ) / 4 * hubTensor P.2 P.1 Q.1 Q.2 := by
  simp only [Matrix.mul_apply, toMat, hubAtom_chi0Lim]
  rw [Finset.sum_eq_single (P.2, P.1)]
  · simp
  · rintro ⟨c, d⟩ _ hne
    rw [if_neg, zero_mul]
    rintro ⟨rfl, rfl⟩
    exact hne rfl
  · simp

/-- the eigenvalues of `chi0 U` of the atom are `beta / 4` and `-beta / 4` -/
theorem hubAtom_sq (beta : ℝ) :
    toMat (chi0Lim (baseInit (hubAtom beta) 0)) * toMat hubTensor
      * (toMat (chi0Lim (baseInit (hubAtom beta) 0)) * toMat hubTensor) = ((beta : ℂ) / 4) ^ 2 • 1 := by
  ext ⟨p, q⟩ ⟨r, s⟩
  rw [Matrix.mul_apply]
  simp only [hubAtom_product, Fintype.sum_prod_type, Fin.sum_univ_two, Matrix.smul_apply,
    Matrix.one_apply, Prod.mk.injEq, smul_eq_mul]
  fin_cases p <;> fin_cases q <;> fin_cases r <;> fin_cases s <;> simp [hubTensor] <;> ring

theorem hubAtom_roots (beta : ℝ) (z : ℂ)
    (hz : z ∈ (toMat (chi0Lim (baseInit (hubAtom beta) 0)) * toMat hubTensor).charpoly.roots) :
    z = (beta : ℂ) / 4 ∨ z = -((beta : ℂ) / 4) := by
  obtain ⟨v, hv, h⟩ := (mem_roots_iff _ _).1 hz
  have h2 := congrArg (toMat (chi0Lim (baseInit (hubAtom beta) 0)) * toMat hubTensor).mulVec h
  rw [Matrix.mulVec_mulVec, hubAtom_sq, Matrix.smul_mulVec, Matrix.one_mulVec, Matrix.mulVec_smul, h, smul_smul] at h2
  obtain ⟨i, hi⟩ : ∃ i, v i ≠ 0 := by
    by_contra hc
    push Not at hc
    exact hv (funext hc)
  have h3 := congrFun h2 i
  simp only [Pi.smul_apply, smul_eq_mul] at h3
  have h4 := mul_right_cancel₀ hi h3
  have h5 : (z - (beta : ℂ) / 4) * (z + (beta : ℂ) / 4) = 0 := by linear_combination -h4
  rcases mul_eq_zero.1 h5 with h | h
  · exact Or.inl (sub_eq_zero.1 h)
  · exact Or.inr (eq_neg_of_add_eq_zero_left h)

/-- `beta / 4` is an eigenvalue: the magnetic field along the first axis -/
theorem hubAtom_root (beta : ℝ) :
    (beta : ℂ) / 4 ∈ (toMat (chi0Lim (baseInit (hubAtom beta) 0)) * toMat hubTensor).charpoly.roots := by
  refine (mem_roots_iff _ _).2 ⟨fun P => if P.1 = P.2 then 0 else 1, ?_, ?_⟩
  · intro h
    have := congrFun h ((0 : Fin 2), (1 : Fin 2))
    simp at this
  · funext ⟨p, q⟩
    simp only [Matrix.mulVec, dotProduct, hubAtom_product, Fintype.sum_prod_type, Fin.sum_univ_two,
      Pi.smul_apply, smul_eq_mul]
    fin_cases p <;> fin_cases q <;> simp [hubTensor]

/-- The hypotheses of `C103_stability` are met by the half filled atom at every temperature. Above the
temperature `1/4` the theorem says that the paramagnetic solution is a minimum; below this temperature, that
there is a hermitian trial field along which the second derivative of the grand potential is not positive. -/
example (beta : ℝ) (hb : 0 < beta) {eig : Lindhard.Eig (Fin 2)} (hs : Lindhard.EigSpec eig) :
    BareLimit eig (hubAtom beta) (chi0Lim (baseInit (hubAtom beta) 0)) ∧
    ((∀ Y : Matrix (Fin 2) (Fin 2) ℂ, Y.IsHermitian → Y ≠ 0 →
        0 < deriv (deriv fun r : ℝ => grandPotential (κ := Fin 1) beta (1 / 2) (fun _ => 0) hubTensor fun k =>
          (hubAtom beta).ekMF k - (((hubAtom beta).mu : ℝ) : ℂ) • 1 + (r : ℂ) • Y) 0) ↔ beta < 4) := by
  have hX : BareLimit eig (hubAtom beta) (chi0Lim (baseInit (hubAtom beta) 0)) := fun a b c d =>
    chi0_tendsto hs (baseInit (hubAtom beta) 0) (base_hermitian _ (hubAtom_hermitian beta))
      (base_symm _ (hubAtom_hermitian beta) (hubAtom_real beta)) a b c d
  refine ⟨hX, ?_⟩
  obtain ⟨eigvals, hev⟩ := exists_eigvals (I := Fin 2 × Fin 2)
  obtain ⟨sorted, hso⟩ := exists_argsort
  have h := (C103_stability hs (hubAtom beta) hb (hubAtom_hermitian beta) (hubAtom_real beta) hubTensor_symm
    hubTensor_conj (fun _ => 0) ((1 / 2 : ℂ) • 1) (fun k => by
      rw [zero_add]
      exact (hub_meanField _).symm) (hubAtom_selfConsistent beta) hev hso hX).2
  refine h.symm.trans ?_
  simp only [mem_modes hev hso]
  have hre : ((beta : ℂ) / 4).re = beta / 4 := by
    rw [show ((beta : ℂ) / 4) = ((beta / 4 : ℝ) : ℂ) by push_cast; ring, Complex.ofReal_re]
  constructor
  · intro h1
    obtain ⟨r, h2, h3⟩ := h1 _ ⟨_, hubAtom_root beta, rfl⟩
    rw [hre, recip] at h2
    by_cases h4 : 1 - beta / 4 = 0
    · rw [if_pos h4] at h2
      cases h2
    · rw [if_neg h4, Option.some_inj] at h2
      rw [← h2, one_div, inv_pos] at h3
      linarith
  · rintro h1 m ⟨z, hz, rfl⟩
    have h2 : 0 < 1 - z.re := by
      rcases hubAtom_roots beta z hz with rfl | rfl
      · rw [hre]; linarith
      · rw [Complex.neg_re, hre]; linarith
    exact ⟨1 / (1 - z.re), by rw [recip, if_neg h2.ne'], by positivity⟩

/-- The hypotheses of `C103_order` are met by the atom above the temperature `1/4`. -/
example (beta : ℝ) (hb : 0 < beta) (h4 : beta < 4) :
    ∀ z ∈ (toMat (chi0Lim (baseInit (hubAtom beta) 0)) * toMat hubTensor).charpoly.roots, z.re < 1 := by
  have hre : ((beta : ℂ) / 4).re = beta / 4 := by
    rw [show ((beta : ℂ) / 4) = ((beta / 4 : ℝ) : ℂ) by push_cast; ring, Complex.ofReal_re]
  intro z hz
  rcases hubAtom_roots beta z hz with rfl | rfl
  · rw [hre]; linarith
  · rw [Complex.neg_re, hre]; linarith

/-- The hypotheses of `C103_product` and `C103_divergence`: the eigenvalues of the atom are real, and the
response diverges at the temperature `1/4` only. -/
example (beta : ℝ) (hb : 0 < beta) :
    (∀ z ∈ (toMat (chi0Lim (baseInit (hubAtom beta) 0)) * toMat hubTensor).charpoly.roots, z.im = 0) ∧
    ((1 - toMat (chi0Lim (baseInit (hubAtom beta) 0)) * toMat hubTensor).det = 0 ↔ beta = 4) := by
  have hc : ((beta : ℂ) / 4) = ((beta / 4 : ℝ) : ℂ) := by push_cast; ring
  have hr : ∀ z ∈ (toMat (chi0Lim (baseInit (hubAtom beta) 0)) * toMat hubTensor).charpoly.roots, z.im = 0 := by
    intro z hz
    rcases hubAtom_roots beta z hz with rfl | rfl
    · rw [hc, Complex.ofReal_im]
    · rw [Complex.neg_im, hc, Complex.ofReal_im, neg_zero]
  refine ⟨hr, ?_⟩
  rw [det_one_sub, Multiset.prod_eq_zero_iff, Multiset.mem_map]
  constructor
  · rintro ⟨z, hz, h⟩
    have h1 : z = 1 := (sub_eq_zero.1 h).symm
    rcases hubAtom_roots beta z hz with h2 | h2
    · rw [h1, hc] at h2
      have : (1 : ℝ) = beta / 4 := by exact_mod_cast h2
      linarith
    · rw [h1, hc] at h2
      have : (1 : ℝ) = -(beta / 4) := by exact_mod_cast h2
      linarith
  · rintro rfl
    exact ⟨_, hubAtom_root 4, by norm_num⟩

/-- The hypotheses of `C103_enhancement` are met by one orbital at zero energy with a unit interaction and a
finite step. -/
example {eig : Lindhard.Eig (Fin 1)} (hs : Lindhard.EigSpec eig) :
    let b : Base 1 (Fin 1) := { beta := 1, eps := 1, ek := fun _ => 0 }
    let U : Operators.T4 1 := fun _ _ _ _ => 1
    (1 - toMat (hfrOf eig U b).chi0 * toMat U).det ≠ 0 ∧
    ∃ (x : ℝ) (v : Fin 1 × Fin 1 → ℂ), x ≠ 0 ∧ v ≠ 0 ∧
      (∀ a c, v (a, c) = ∑ d, ∑ f, (hfrOf eig U b).chi0 a c d f * (1 : Matrix (Fin 1) (Fin 1) ℂ) d f) ∧
      (toMat (hfrOf eig U b).chi0 * toMat U).mulVec v = (x : ℂ) • v := by
  intro b U
  have hb : ∀ k, (b.ek k).IsHermitian := fun _ => Matrix.isHermitian_zero
  obtain ⟨x, hx0, hx1, hx⟩ : ∃ x : ℝ, 0 < x ∧ x < 1 ∧ ∀ a c d f, (hfrOf eig U b).chi0 a c d f = (x : ℂ) := by
    refine ⟨(HartreeFock.fermi 1 (-2) - HartreeFock.fermi 1 2) / 4, ?_, ?_, ?_⟩
    · have := fermi_lt (beta := 1) one_pos (x := -2) (y := 2) (by norm_num)
      linarith
    · have h1 := fermi_lt_one 1 (-2)
      have h2 := fermi_pos 1 2
      linarith
    · intro a c d f
      have h1 : field 1 (0 : Fin 1) 0 = ((2 : ℝ) : ℂ) • 1 := by
        ext i j
        fin_cases i; fin_cases j
        simp [field]
        norm_num
      have h2 : field Complex.I (0 : Fin 1) 0 = ((0 : ℝ) : ℂ) • 1 := by
        ext i j
        fin_cases i; fin_cases j
        simp [field]
      have h3 : ∀ y : ℝ, drhoK eig b ((y : ℂ) • 1) 0 0 0 = ((HartreeFock.fermi 1 y - HartreeFock.fermi 1 (-y) : ℝ) : ℂ) / 2 := by
        intro y
        have hy : ((y : ℂ) • (1 : Matrix (Fin 1) (Fin 1) ℂ)).IsHermitian := by
          simp [Matrix.IsHermitian, Matrix.conjTranspose_smul]
        have h4 : (0 : Matrix (Fin 1) (Fin 1) ℂ) - ((1 : ℝ) : ℂ) • ((y : ℂ) • 1) = ((-y : ℝ) : ℂ) • 1 := by
          push_cast; simp
        have h5 : (0 : Matrix (Fin 1) (Fin 1) ℂ) + ((1 : ℝ) : ℂ) • ((y : ℂ) • 1) = (y : ℂ) • 1 := by
          simp
        rw [drhoK_eq hs b 0 (hb 0) hy]
        show ((2 * ((1 : ℝ) : ℂ))⁻¹ • (fermiMatrix 1 ((0 : Matrix (Fin 1) (Fin 1) ℂ) + ((1 : ℝ) : ℂ) • ((y : ℂ) • 1))
          - fermiMatrix 1 ((0 : Matrix (Fin 1) (Fin 1) ℂ) - ((1 : ℝ) : ℂ) • ((y : ℂ) • 1)))
          : Matrix (Fin 1) (Fin 1) ℂ) 0 0 = _
        rw [h4, h5, fermiMatrix_scalar, fermiMatrix_scalar]
        simp
        ring
      fin_cases a; fin_cases c; fin_cases d; fin_cases f
      simp only [hfrOf, toTen, toMat, chi0Abcd, chi0Kabcd, rKabcd, Finset.univ_unique, Finset.sum_singleton,
        Fintype.card_unique, Nat.cast_one, div_one]
      show (0.5 : ℂ) * (-drhoK eig b (field 1 0 0) 0 0 0 + ((-drhoK eig b (field Complex.I 0 0) 0 0 0).im : ℂ)) = _
      rw [h1, h2, h3 2, h3 0]
      push_cast
      simp
      ring
  have hmul : ∀ P Q, (toMat (hfrOf eig U b).chi0 * toMat U) P Q = (x : ℂ) := by
    intro P Q
    simp [Matrix.mul_apply, toMat, hx, U]
  refine ⟨?_, x, fun _ => x, hx0.ne', ?_, ?_, ?_⟩
  · have : (1 - toMat (hfrOf eig U b).chi0 * toMat U).det = ((1 - x : ℝ) : ℂ) := by
      let _ : Unique (Fin 1 × Fin 1) := ⟨⟨(0, 0)⟩, fun p => Subsingleton.elim _ _⟩
      rw [Matrix.det_unique, Matrix.sub_apply, hmul, Matrix.one_apply_eq]
      push_cast
      rfl
    rw [this]
    exact_mod_cast (by linarith : (1 - x : ℝ) ≠ 0)
  · intro h
    have := congrFun h (0, 0)
    simp only [Pi.zero_apply] at this
    exact hx0.ne' (by exact_mod_cast this)
  · intro a c
    simp [hx]
  · funext P
    simp [Matrix.mulVec, dotProduct, hmul]

end Verif.HfResponse
