import Verif.Dyson.Props
import Mathlib.LinearAlgebra.Matrix.PosDef
import Mathlib.Analysis.Complex.Order
import Mathlib.Analysis.SpecialFunctions.Integrals.Basic
import Mathlib.Analysis.SpecialFunctions.ImproperIntegrals
import Mathlib.Analysis.Matrix.Spectrum
import Mathlib.Tactic.NoncommRing

/-!
# C105: the lattice Green's function is causal

The specification: a matrix `X` is retarded if `i (X - X†)` (minus twice its imaginary part) is positive semidefinite.
-/

set_option linter.unusedSectionVars false

noncomputable section

namespace Verif.Causal

open Matrix Verif.Dyson Verif.Parallel
open scoped ComplexOrder

variable {n : Type*} [Fintype n] [DecidableEq n] {W K : Type*} [DecidableEq W] [DecidableEq K]

/-- minus twice the imaginary part of a matrix -/
def damping (X : Matrix n n ℂ) : Matrix n n ℂ := Complex.I • (X - Xᴴ)

theorem damping_apply (X : Matrix n n ℂ) (a b : n) : damping X a b = Complex.I * (X a b - star (X b a)) := by
  simp [damping]

theorem damping_diag (X : Matrix n n ℂ) (a : n) : damping X a a = ((-2 * (X a a).im : ℝ) : ℂ) := by
  rw [damping_apply]
  refine Complex.ext ?_ ?_ <;> simp
  ring

/-- the matrix that is inverted -/
theorem damping_denominator {z mu : ℂ} (hmu : mu.im = 0) {e S : Matrix n n ℂ} (he : e.IsHermitian) :
    -damping ((z + mu) • (1 : Matrix n n ℂ) - e - S) = ((2 * z.im : ℝ) : ℂ) • (1 : Matrix n n ℂ) + damping S := by
  have hz : -(Complex.I * (z + mu - star (z + mu))) = ((2 * z.im : ℝ) : ℂ) := by
    refine Complex.ext ?_ ?_ <;> simp [hmu]
    ring
  rw [← hz]
  unfold damping
  rw [conjTranspose_sub, conjTranspose_sub, he.eq, conjTranspose_smul, conjTranspose_one]
  module

theorem isUnit_of_damping {M : Matrix n n ℂ} (h : (-damping M).PosDef) : IsUnit M.det := by
  rw [← Matrix.isUnit_iff_isUnit_det, ← Matrix.mulVec_injective_iff_isUnit, ← Matrix.coe_mulVecLin,
    ← LinearMap.ker_eq_bot, LinearMap.ker_eq_bot']
  intro v hv
  rw [Matrix.mulVecLin_apply] at hv
  by_contra hne
  have h1 := h.dotProduct_mulVec_pos hne
  have h2 : star v ⬝ᵥ (Mᴴ *ᵥ v) = 0 := by
    rw [dotProduct_mulVec, ← star_mulVec, hv, star_zero, zero_dotProduct]
  rw [damping, ← smul_neg, smul_mulVec, neg_mulVec, sub_mulVec, hv, zero_sub, neg_neg, dotProduct_smul, h2, smul_zero] at h1
  exact lt_irrefl _ h1

theorem damping_inv {M : Matrix n n ℂ} (h : IsUnit M.det) : damping M⁻¹ = M⁻¹ * (-damping M) * (M⁻¹)ᴴ := by
  have h1 : M⁻¹ * M = 1 := nonsing_inv_mul _ h
  have h2 : Mᴴ * (M⁻¹)ᴴ = 1 := by rw [← conjTranspose_mul, h1, conjTranspose_one]
  unfold damping
  rw [← smul_neg, Matrix.mul_smul, Matrix.smul_mul, neg_sub, Matrix.mul_sub, h1, Matrix.sub_mul, Matrix.one_mul,
    Matrix.mul_assoc, h2, Matrix.mul_one]

/-- what holds at one point -/
theorem point {z mu : ℂ} (hz : 0 < z.im) (hmu : mu.im = 0) {e S : Matrix n n ℂ} (he : e.IsHermitian)
    (hS : (damping S).PosSemidef) :
    IsUnit ((z + mu) • (1 : Matrix n n ℂ) - e - S).det ∧
      (damping ((z + mu) • (1 : Matrix n n ℂ) - e - S)⁻¹).PosDef ∧
      ∀ a, ∑ b, ‖((z + mu) • (1 : Matrix n n ℂ) - e - S)⁻¹ a b‖ ^ 2
        ≤ -(((z + mu) • (1 : Matrix n n ℂ) - e - S)⁻¹ a a).im / z.im := by
  set M := (z + mu) • (1 : Matrix n n ℂ) - e - S with hM
  have hd : -damping M = ((2 * z.im : ℝ) : ℂ) • (1 : Matrix n n ℂ) + damping S := damping_denominator hmu he
  have hpos : (-damping M).PosDef := by
    rw [hd]
    refine (PosDef.smul PosDef.one ?_).add_posSemidef hS
    exact_mod_cast (by positivity : 0 < 2 * z.im)
  have hu := isUnit_of_damping hpos
  refine ⟨hu, ?_, fun a => ?_⟩
  · rw [damping_inv hu]
    have hu' : IsUnit (M⁻¹) := (Matrix.isUnit_nonsing_inv_iff).2 ((Matrix.isUnit_iff_isUnit_det _).2 hu)
    exact (Matrix.IsUnit.posDef_star_right_conjugate_iff hu').2 hpos
  · have h1 := congrFun (congrFun (damping_inv hu) a) a
    rw [damping_diag, hd, Matrix.mul_add, Matrix.add_mul, Matrix.add_apply, Matrix.mul_smul, Matrix.mul_one, Matrix.smul_mul,
      Matrix.smul_apply, Matrix.mul_apply] at h1
    have h2 : 0 ≤ (M⁻¹ * damping S * (M⁻¹)ᴴ) a a := (hS.mul_mul_conjTranspose_same M⁻¹).diag_nonneg
    have h3 : ∀ b, M⁻¹ a b * (M⁻¹)ᴴ b a = ((‖M⁻¹ a b‖ ^ 2 : ℝ) : ℂ) := by
      intro b
      rw [conjTranspose_apply, Complex.star_def, Complex.mul_conj, Complex.normSq_eq_norm_sq]
    simp only [h3] at h1
    have h4 := congrArg Complex.re h1
    rw [Complex.add_re, smul_eq_mul, ← Complex.ofReal_sum, ← Complex.ofReal_mul, Complex.ofReal_re, Complex.ofReal_re] at h4
    have h5 : 0 ≤ ((M⁻¹ * damping S * (M⁻¹)ᴴ) a a).re := (Complex.le_def.1 h2).1
    rw [le_div_iff₀ hz]
    linarith

theorem GXk_eq (ranks : ℕ) (hr : 0 < ranks) (mu : ℂ) (val : W → ℂ) (wmesh : List W) (kmesh : List K)
    (hw : wmesh.Nodup) (hk : kmesh.Nodup) (e : K → Matrix n n ℂ) (sigma : Sigma W K n ℂ) (idelta : ℂ) (w : W) (k : K)
    (hwm : w ∈ wmesh) (hkm : k ∈ kmesh) (S : Matrix n n ℂ) (hS : SelfEnergyAt sigma w k S) :
    latticeDysonGXk ranks mu val wmesh kmesh e sigma idelta (w, k)
      = ((val w + idelta + mu) • (1 : Matrix n n ℂ) - e k - S)⁻¹ := by
  rw [latticeDysonGXk, C02_distributedAssign ranks hr _ (prodMesh_nodup hw hk),
    if_pos (mem_prodMesh.2 ⟨hwm, hkm⟩), hS.term_eq]

/-- C105: with a hermitian dispersion, a real chemical potential and a self energy with nonnegative damping, at every frequency in
the upper half plane the matrix is invertible, the returned Green's function solves the Dyson equation, its damping is positive
definite, and every row is bounded by the inverse distance to the real axis. -/
theorem C105_causal (ranks : ℕ) (hr : 0 < ranks) (mu : ℂ) (hmu : mu.im = 0) (val : W → ℂ) (wmesh : List W) (kmesh : List K)
    (hw : wmesh.Nodup) (hk : kmesh.Nodup) (e : K → Matrix n n ℂ) (he : ∀ k, (e k).IsHermitian) (sigma : Sigma W K n ℂ)
    (idelta : ℂ) (w : W) (k : K) (hwm : w ∈ wmesh) (hkm : k ∈ kmesh) (S : Matrix n n ℂ) (hS : SelfEnergyAt sigma w k S)
    (hpos : (damping S).PosSemidef) (hz : 0 < (val w + idelta).im) :
    SolvesDyson (val w + idelta) mu (e k) S (latticeDysonGXk ranks mu val wmesh kmesh e sigma idelta (w, k)) ∧
    (damping (latticeDysonGXk ranks mu val wmesh kmesh e sigma idelta (w, k))).PosDef ∧
    ∀ a, ∑ b, ‖latticeDysonGXk ranks mu val wmesh kmesh e sigma idelta (w, k) a b‖ ^ 2 ≤ 1 / (val w + idelta).im ^ 2 := by
  obtain ⟨h1, h2, h3⟩ := point hz hmu (he k) hpos
  have hG := GXk_eq ranks hr mu val wmesh kmesh hw hk e sigma idelta w k hwm hkm S hS
  refine ⟨C04_latticeDyson_solves ranks hr mu val wmesh kmesh hw hk e sigma idelta w k hwm hkm S hS h1, ?_, fun a => ?_⟩
  · rw [hG]
    exact h2
  · rw [hG]
    set G := ((val w + idelta + mu) • (1 : Matrix n n ℂ) - e k - S)⁻¹
    set y := (val w + idelta).im
    have h4 := h3 a
    have h5 : ‖G a a‖ ^ 2 ≤ ∑ b, ‖G a b‖ ^ 2 :=
      Finset.single_le_sum (f := fun b => ‖G a b‖ ^ 2) (fun b _ => sq_nonneg _) (Finset.mem_univ a)
    have h6 : -(G a a).im ≤ ‖G a a‖ := (neg_le_abs _).trans (Complex.abs_im_le_norm _)
    have h7 : ‖G a a‖ ≤ 1 / y := by
      rw [le_div_iff₀ hz]
      have h8 : ‖G a a‖ ^ 2 * y ≤ ‖G a a‖ := by
        have h9 := h5.trans h4
        rw [le_div_iff₀ hz] at h9
        exact h9.trans h6
      by_contra hc
      push Not at hc
      have h10 : 0 < ‖G a a‖ := by
        rcases (norm_nonneg (G a a)).eq_or_lt with h | h
        · rw [← h] at hc
          linarith
        · exact h
      nlinarith
    calc ∑ b, ‖G a b‖ ^ 2 ≤ -(G a a).im / y := h4
      _ ≤ (1 / y) / y := div_le_div_of_nonneg_right (h6.trans h7) hz.le
      _ = 1 / y ^ 2 := by field_simp

/-- C105: the same for the local Green's function. -/
theorem C105_local (ranks : ℕ) (hr : 0 < ranks) (mu : ℂ) (hmu : mu.im = 0) (val : W → ℂ) (wmesh : List W) (kmesh : List K)
    (hw : wmesh.Nodup) (hk : kmesh.Nodup) (hne : kmesh ≠ []) (e : K → Matrix n n ℂ) (he : ∀ k, (e k).IsHermitian)
    (sigma : Sigma W K n ℂ) (idelta : ℂ) (w : W) (hwm : w ∈ wmesh)
    (hpos : ∀ k S, SelfEnergyAt sigma w k S → (damping S).PosSemidef) (hz : 0 < (val w + idelta).im) :
    (damping (latticeDysonGX ranks mu val wmesh kmesh e sigma idelta w)).PosDef ∧
    ∀ a b, ‖latticeDysonGX ranks mu val wmesh kmesh e sigma idelta w a b‖ ≤ 1 / (val w + idelta).im := by
  have hc := fun k (hkm : k ∈ kmesh) => C105_causal ranks hr mu hmu val wmesh kmesh hw hk e he sigma idelta w k hwm hkm _
    (selfEnergyAt_term sigma w k) (hpos k _ (selfEnergyAt_term sigma w k)) hz
  rw [C05_local_is_average ranks ranks hr hr mu val wmesh kmesh hw hk e sigma idelta w hwm]
  set g := fun k => latticeDysonGXk ranks mu val wmesh kmesh e sigma idelta (w, k)
  have hN : (0 : ℝ) < kmesh.length := by exact_mod_cast List.length_pos_iff.2 hne
  have hlin : ∀ l : List K, damping ((l.map g).sum) = (l.map fun k => damping (g k)).sum := by
    intro l
    induction l with
    | nil => simp [damping]
    | cons k l ih =>
      rw [List.map_cons, List.sum_cons, List.map_cons, List.sum_cons, ← ih]
      unfold damping
      rw [conjTranspose_add]
      module
  have hsm : ∀ (r : ℝ) (X : Matrix n n ℂ), damping ((r : ℂ) • X) = (r : ℂ) • damping X := by
    intro r X
    unfold damping
    rw [conjTranspose_smul, Complex.star_def, Complex.conj_ofReal]
    module
  have hcast : ((kmesh.length : ℂ))⁻¹ = ((kmesh.length : ℝ)⁻¹ : ℝ) := by push_cast; rfl
  constructor
  · rw [hcast, hsm, hlin]
    refine PosDef.smul ?_ (by exact_mod_cast inv_pos.2 hN)
    have : ∀ l : List K, l ≠ [] → (∀ k ∈ l, k ∈ kmesh) → ((l.map fun k => damping (g k)).sum).PosDef := by
      intro l
      induction l with
      | nil => exact fun h => absurd rfl h
      | cons k l ih =>
        intro _ hm
        rw [List.map_cons, List.sum_cons]
        have h1 := (hc k (hm k (by simp))).2.1
        rcases eq_or_ne l [] with rfl | h
        · simpa using h1
        · exact h1.add (ih h fun k hk => hm k (by simp [hk]))
    exact this kmesh hne fun k h => h
  · intro a b
    rw [Matrix.smul_apply, smul_eq_mul, norm_mul, hcast, Complex.norm_real, Real.norm_of_nonneg (inv_nonneg.2 hN.le),
      inv_mul_le_iff₀ hN]
    have hel : ∀ k ∈ kmesh, ‖g k a b‖ ≤ 1 / (val w + idelta).im := by
      intro k hkm
      have h1 := (hc k hkm).2.2 a
      have h2 : ‖g k a b‖ ^ 2 ≤ ∑ b, ‖g k a b‖ ^ 2 :=
        Finset.single_le_sum (f := fun b => ‖g k a b‖ ^ 2) (fun b _ => sq_nonneg _) (Finset.mem_univ b)
      refine abs_le_of_sq_le_sq' ?_ (by positivity) |>.2
      rw [div_pow, one_pow]
      exact h2.trans h1
    have : ∀ l : List K, (∀ k ∈ l, k ∈ kmesh) → ‖(l.map g).sum a b‖ ≤ l.length * (1 / (val w + idelta).im) := by
      intro l
      induction l with
      | nil => simp
      | cons k l ih =>
        intro hm
        rw [List.map_cons, List.sum_cons, Matrix.add_apply, List.length_cons]
        refine (norm_add_le _ _).trans ?_
        have h1 := hel k (hm k (by simp))
        have h2 := ih fun k hk => hm k (by simp [hk])
        push_cast
        linarith
    exact this kmesh fun k h => h

/-- C105: at high frequencies the Green's function tends to `1/z`, with an explicit bound. -/
theorem C105_asymptotic (ranks : ℕ) (hr : 0 < ranks) (mu : ℂ) (hmu : mu.im = 0) (val : W → ℂ) (wmesh : List W) (kmesh : List K)
    (hw : wmesh.Nodup) (hk : kmesh.Nodup) (e : K → Matrix n n ℂ) (he : ∀ k, (e k).IsHermitian) (sigma : Sigma W K n ℂ)
    (idelta : ℂ) (w : W) (k : K) (hwm : w ∈ wmesh) (hkm : k ∈ kmesh) (S : Matrix n n ℂ) (hS : SelfEnergyAt sigma w k S)
    (hpos : (damping S).PosSemidef) (hz : 0 < (val w + idelta).im) (a b : n) :
    ‖(val w + idelta) * latticeDysonGXk ranks mu val wmesh kmesh e sigma idelta (w, k) a b - (if a = b then 1 else 0)‖
      ≤ (∑ c, ‖(e k + S - mu • (1 : Matrix n n ℂ)) a c‖) / (val w + idelta).im := by
  obtain ⟨h1, -, h3⟩ := C105_causal ranks hr mu hmu val wmesh kmesh hw hk e he sigma idelta w k hwm hkm S hS hpos hz
  set G := latticeDysonGXk ranks mu val wmesh kmesh e sigma idelta (w, k)
  have h4 : (val w + idelta) • G - 1 = (e k + S - mu • (1 : Matrix n n ℂ)) * G := by
    have h5 := h1.1
    simp only [Matrix.sub_mul, Matrix.add_mul, Matrix.smul_mul, Matrix.one_mul, add_smul] at h5
    simp only [Matrix.sub_mul, Matrix.add_mul, Matrix.smul_mul, Matrix.one_mul, add_smul]
    rw [← h5]
    abel
  have h6 := congrFun (congrFun h4 a) b
  rw [Matrix.sub_apply, Matrix.smul_apply, smul_eq_mul, Matrix.one_apply, Matrix.mul_apply] at h6
  rw [h6, Finset.sum_div]
  refine (norm_sum_le _ _).trans (Finset.sum_le_sum fun c _ => ?_)
  rw [norm_mul, div_eq_mul_one_div]
  refine mul_le_mul_of_nonneg_left ?_ (norm_nonneg _)
  have h7 : ‖G c b‖ ^ 2 ≤ ∑ b, ‖G c b‖ ^ 2 :=
    Finset.single_le_sum (f := fun b => ‖G c b‖ ^ 2) (fun b _ => sq_nonneg _) (Finset.mem_univ b)
  refine abs_le_of_sq_le_sq' ?_ (by positivity) |>.2
  rw [div_pow, one_pow]
  exact h7.trans (h3 c)

end Verif.Causal
