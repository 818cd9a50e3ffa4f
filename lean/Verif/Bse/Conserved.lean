import Verif.Bse.Converge
import Verif.Lindhard.Screening

/-!
# C116: conserved charges in the imaginary time bubble

The bubble of `imtime_bubble_chi0_wk` has the pair indices in the order of the documentation: the operators that do not respond
are those that commute with the Hamiltonian, with or without time reversal symmetry.
-/

noncomputable section

namespace Verif.Bse

open Complex Verif.Parallel Verif.Fourier Verif.Bubble Verif.Lindhard Matrix

set_option linter.unusedSectionVars false

variable {d : ℕ} {n : Fin d → ℕ} [∀ i, NeZero (n i)] {o : Type} [Fintype o] [DecidableEq o]

/-- the closed form of the bubble at zero momentum -/
def bandsLimit (eig : Eig o) (beta mu : ℝ) (e : Lat n → Matrix o o ℂ) (m : ℤ) : Bubble.T4 o := fun a b c f =>
  (Fintype.card (Lat n) : ℂ)⁻¹ * ∑ k, dbl (sys eig mu e k) (sys eig mu e k) (pairFactor beta m) f c b a

theorem pairFactor_self (beta : ℝ) (hb : 0 < beta) (m : ℤ) (x : ℝ) :
    pairFactor beta m x x = if m = 0 then ((beta / (4 * Real.cosh (x * beta / 2) ^ 2) : ℝ) : ℂ) else 0 := by
  by_cases h : m = 0
  · rw [if_pos h, h, pairFactor_diag beta hb, mul_comm beta x]
  · rw [if_neg h, pairFactor_eq beta hb m x x (fun hh => h hh.1)]
    simp

theorem weight_self (eig : Eig o) (beta mu : ℝ) (hb : 0 < beta) (e : Lat n → Matrix o o ℂ) (X : Matrix o o ℂ) (m : ℤ) (a b : o) :
    (Fintype.card (Lat n) : ℂ)⁻¹ * ∑ k, (X * matFun (sys eig mu e k) fun x => pairFactor beta m x x) a b
      = if m = 0 then (X * thermalWeight eig beta mu e) a b else 0 := by
  by_cases h : m = 0
  · rw [if_pos h, thermalWeight, Matrix.mul_smul, Matrix.smul_apply, smul_eq_mul, Matrix.mul_sum, Matrix.sum_apply]
    simp only [pairFactor_self beta hb, if_pos h]
  · rw [if_neg h]
    have h0 : ∀ k, (matFun (sys eig mu e k) fun x => pairFactor beta m x x) = 0 := by
      intro k
      ext a b
      rw [matFun_apply]
      simp [pairFactor_self beta hb, h]
    simp [h0]

theorem bandsLimit_left {eig : Eig o} (hs : EigSpec eig) (beta mu : ℝ) (hb : 0 < beta) {e : Lat n → Matrix o o ℂ}
    (he : ∀ k, (e k).IsHermitian) {X : Matrix o o ℂ} (hX : Conserved e X) (m : ℤ) (c f : o) :
    leftCharge X (bandsLimit eig beta mu e m) c f = if m = 0 then (X * thermalWeight eig beta mu e) f c else 0 := by
  rw [← weight_self eig beta mu hb e X m f c]
  have e1 : leftCharge X (bandsLimit eig beta mu e m) c f = (Fintype.card (Lat n) : ℂ)⁻¹
      * ∑ k, rightCharge Xᵀ (dbl (sys eig mu e k) (sys eig mu e k) (pairFactor beta m)) f c := by
    simp only [leftCharge, rightCharge, bandsLimit, Finset.mul_sum, Matrix.transpose_apply]
    calc ∑ a, ∑ b, ∑ k, _ = ∑ a, ∑ k, ∑ b, _ := Finset.sum_congr rfl fun a _ => Finset.sum_comm
      _ = ∑ k, ∑ a, ∑ b, _ := Finset.sum_comm
      _ = _ := Finset.sum_congr rfl fun k _ => by
          rw [Finset.sum_comm]
          exact Finset.sum_congr rfl fun a _ => Finset.sum_congr rfl fun b _ => by ring
  rw [e1]
  congr 1
  refine Finset.sum_congr rfl fun k _ => ?_
  have h := rightCharge_dbl (X := Xᵀ) (sys_diag hs mu he k) (by
    rw [Matrix.transpose_transpose]; exact commute_shift _ (hX k)) (pairFactor beta m) f c
  rwa [Matrix.transpose_transpose] at h

theorem bandsLimit_right {eig : Eig o} (hs : EigSpec eig) (beta mu : ℝ) (hb : 0 < beta) {e : Lat n → Matrix o o ℂ}
    (he : ∀ k, (e k).IsHermitian) {X : Matrix o o ℂ} (hX : Conserved e X) (m : ℤ) (a b : o) :
    rightCharge X (bandsLimit eig beta mu e m) a b = if m = 0 then (X * thermalWeight eig beta mu e) b a else 0 := by
  rw [← weight_self eig beta mu hb e X m b a]
  have e1 : rightCharge X (bandsLimit eig beta mu e m) a b = (Fintype.card (Lat n) : ℂ)⁻¹
      * ∑ k, leftCharge Xᵀ (dbl (sys eig mu e k) (sys eig mu e k) (pairFactor beta m)) b a := by
    simp only [leftCharge, rightCharge, bandsLimit, Finset.mul_sum, Matrix.transpose_apply]
    calc ∑ c, ∑ f, ∑ k, _ = ∑ c, ∑ k, ∑ f, _ := Finset.sum_congr rfl fun a _ => Finset.sum_comm
      _ = ∑ k, ∑ c, ∑ f, _ := Finset.sum_comm
      _ = _ := Finset.sum_congr rfl fun k _ => by
          rw [Finset.sum_comm]
          exact Finset.sum_congr rfl fun a _ => Finset.sum_congr rfl fun b _ => by ring
  rw [e1]
  congr 1
  refine Finset.sum_congr rfl fun k _ => ?_
  have h := leftCharge_dbl (X := Xᵀ) (sys_diag hs mu he k) (by
    rw [Matrix.transpose_transpose]; exact commute_shift _ (hX k)) (pairFactor beta m) b a
  rwa [Matrix.transpose_transpose] at h

theorem bandsLimit_eq (eig : Eig o) (beta mu : ℝ) (e : Lat n → Matrix o o ℂ) (m : ℤ) (a b c f : o) :
    (Fintype.card (Lat n) : ℂ)⁻¹ * ∑ k, ∑ l, ∑ l', (Poles.bands eig mu e).res k l f a * (Poles.bands eig mu e).res (k - 0) l' b c
        * pairFactor beta m ((Poles.bands eig mu e).eps k l) ((Poles.bands eig mu e).eps (k - 0) l')
      = bandsLimit eig beta mu e m a b c f := by
  unfold bandsLimit dbl
  congr 1
  refine Finset.sum_congr rfl fun k _ => ?_
  rw [sub_zero]
  refine Finset.sum_congr rfl fun l _ => Finset.sum_congr rfl fun l' _ => ?_
  simp only [Poles.bands]
  ring

theorem charge_bound (X : Matrix o o ℂ) (x y : o → o → ℂ) {r : ℝ} (C : o → o → ℝ) (h : ∀ a b, ‖x a b - y a b‖ ≤ C a b * r) :
    ‖∑ a, ∑ b, X a b * x a b - ∑ a, ∑ b, X a b * y a b‖ ≤ (∑ a, ∑ b, ‖X a b‖ * C a b) * r := by
  rw [← Finset.sum_sub_distrib, Finset.sum_mul]
  refine (norm_sum_le _ _).trans (Finset.sum_le_sum fun a _ => ?_)
  rw [← Finset.sum_sub_distrib, Finset.sum_mul]
  refine (norm_sum_le _ _).trans (Finset.sum_le_sum fun b _ => ?_)
  rw [← mul_sub, norm_mul, mul_assoc]
  exact mul_le_mul_of_nonneg_left (h a b) (norm_nonneg _)

/-- C116: the bubble of non-interacting electrons from imaginary time. At zero momentum the response of a conserved operator
converges to zero with the mesh at a nonzero frequency, and to the operator times the derivative of the density with respect
to the chemical potential (`thermalWeight`, see `densityAt_deriv`) at zero frequency; no time reversal symmetry is needed. -/
theorem C116_time (eig : Eig o) (hs : EigSpec eig) (beta mu : ℝ) (hb : 0 < beta) (err : ℝ) (herr : 0 ≤ err)
    (e : Lat n → Matrix o o ℂ) (hE : ∀ k, (e k).IsHermitian) (X : Matrix o o ℂ) (hX : Conserved e X) (m : ℤ) (c f : o) :
    ∃ C, 0 ≤ C ∧ ∀ (p : Lattice n o) (N nw : ℕ) (fit : (ℤ → ℂ) → Moments) (save : Bool) (chi : ℤ → Lat n → Bubble.T4 o),
      TimeRoute p beta err (polesTime (Poles.bands eig mu e) beta) N nw fit → p.timeBubble nw save = .ok chi →
      m ∈ (p.bosons nw).indices →
      ‖leftCharge X (chi m 0) c f - (if m = 0 then (X * thermalWeight eig beta mu e) f c else 0)‖ ≤ C / (N : ℝ) ^ 2 ∧
      ‖rightCharge X (chi m 0) c f - (if m = 0 then (X * thermalWeight eig beta mu e) f c else 0)‖ ≤ C / (N : ℝ) ^ 2 := by
  choose C hC h using fun a b c f => C115_poles beta hb err herr (Poles.bands eig mu e) m 0 a b c f
  have hA : 0 ≤ ∑ a, ∑ b, ‖X a b‖ * C a b c f :=
    Finset.sum_nonneg fun a _ => Finset.sum_nonneg fun b _ => mul_nonneg (norm_nonneg _) (hC _ _ _ _)
  have hB : 0 ≤ ∑ a, ∑ b, ‖X a b‖ * C c f a b :=
    Finset.sum_nonneg fun a _ => Finset.sum_nonneg fun b _ => mul_nonneg (norm_nonneg _) (hC _ _ _ _)
  refine ⟨(∑ a, ∑ b, ‖X a b‖ * C a b c f) + ∑ a, ∑ b, ‖X a b‖ * C c f a b, add_nonneg hA hB,
    fun p N nw fit save chi hp hchi hm => ?_⟩
  have hN : (0 : ℝ) ≤ 1 / (N : ℝ) ^ 2 := by positivity
  have key : ∀ a b c f, ‖chi m 0 a b c f - bandsLimit eig beta mu e m a b c f‖ ≤ C a b c f * (1 / (N : ℝ) ^ 2) := by
    intro a b c f
    have h1 := h a b c f p N nw fit save chi hp hchi hm
    rwa [bandsLimit_eq, div_eq_mul_one_div] at h1
  constructor
  · rw [← bandsLimit_left hs beta mu hb hE hX]
    refine (charge_bound X _ _ (fun a b => C a b c f) fun a b => key a b c f).trans ?_
    rw [div_eq_mul_one_div (_ + _)]
    exact mul_le_mul_of_nonneg_right (by linarith) hN
  · rw [← bandsLimit_right hs beta mu hb hE hX]
    refine (charge_bound X _ _ (fun a b => C c f a b) fun a b => key c f a b).trans ?_
    rw [div_eq_mul_one_div (_ + _)]
    exact mul_le_mul_of_nonneg_right (by linarith) hN

/-- a two-level system without time reversal symmetry meets the hypotheses, and its own Hamiltonian is a conserved operator
that is not a multiple of the particle number -/
example : (∀ k : Lat (fun _ : Fin 1 => 1), ((fun _ => twist) k).IsHermitian) ∧
    Conserved (fun _ : Lat (fun _ : Fin 1 => 1) => twist) twist ∧ ¬ TimeReversal (fun _ : Lat (fun _ : Fin 1 => 1) => twist) ∧
    ∀ x : ℂ, twist ≠ x • 1 := by
  refine ⟨fun _ => twist_hermitian, fun _ => rfl, fun h => ?_, fun x h => ?_⟩
  · have h1 := congrFun (congrFun (h 0) 0) 1
    have h2 := congrArg Complex.im h1
    simp [twist] at h2
    norm_num at h2
  · have h1 := congrFun (congrFun h 0) 1
    simp [twist] at h1

end Verif.Bse
