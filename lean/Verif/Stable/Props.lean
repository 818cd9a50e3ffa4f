import Verif.Unique.Props
import Verif.Causal.Props

/-!
# C133: small changes of the input make small changes of the results

Theorems about the models of `lattice_dyson_g_wk`, `lattice_dyson_g_w` (`Verif.Dyson`) and `HartreeFockSolver` (`Verif.HartreeFock`).
Matrices are compared by their Frobenius norm.
-/

set_option linter.unusedSectionVars false

noncomputable section

namespace Verif.Stable

open Matrix Verif.Unique Verif.Dyson Verif.Causal
open scoped ComplexOrder

/-! ## Green's functions -/

section Dyson

variable {o : Type*} [Fintype o] [DecidableEq o] {W K : Type*} [DecidableEq W] [DecidableEq K]

theorem size_conj (X : Matrix o o ℂ) : size Xᴴ = size X := by
  unfold size size2
  rw [Finset.sum_comm]
  simp only [Matrix.conjTranspose_apply, RCLike.star_def, RCLike.norm_conj]

theorem size_I (X : Matrix o o ℂ) : size (-Complex.I • X) = size X := by
  unfold size size2
  simp [Matrix.smul_apply]

/-- a damped matrix cannot be small on anything -/
theorem damped_left {M P : Matrix o o ℂ} {t : ℝ} (ht : 0 < t) (hP : P.PosSemidef)
    (hM : -damping M = ((2 * t : ℝ) : ℂ) • (1 : Matrix o o ℂ) + P) (hu : IsUnit M.det) (X : Matrix o o ℂ) :
    size (M⁻¹ * X) ≤ size X / t := by
  set Y := M⁻¹ * X with hY
  have hMY : M * Y = X := by rw [hY, ← Matrix.mul_assoc, Matrix.mul_nonsing_inv _ hu, Matrix.one_mul]
  have h1 : ip Y (-damping M * Y) = 2 * ip Y (-Complex.I • X) := by
    have e1 : ip Y (-Complex.I • X) = (-Complex.I * Matrix.trace (Yᴴ * X)).re := by
      rw [ip_eq_trace, Matrix.mul_smul, Matrix.trace_smul, smul_eq_mul]
    have e2 : Matrix.trace (Yᴴ * (-damping M * Y))
        = -Complex.I * (Matrix.trace (Yᴴ * X) - star (Matrix.trace (Yᴴ * X))) := by
      have e3 : star (Matrix.trace (Yᴴ * X)) = Matrix.trace (Yᴴ * (Mᴴ * Y)) := by
        rw [← Matrix.trace_conjTranspose, Matrix.conjTranspose_mul, Matrix.conjTranspose_conjTranspose, ← hMY,
          Matrix.conjTranspose_mul, Matrix.mul_assoc]
      have e4 : -damping M * Y = -Complex.I • (X - Mᴴ * Y) := by
        unfold damping
        rw [← hMY, ← Matrix.sub_mul, ← Matrix.smul_mul, neg_smul]
      rw [e3, e4, Matrix.mul_smul, Matrix.trace_smul, smul_eq_mul, Matrix.mul_sub, Matrix.trace_sub]
    rw [e1, ip_eq_trace, e2]
    simp
    ring
  have h2 : 2 * t * size2 Y ≤ ip Y (-damping M * Y) := by
    rw [hM, Matrix.add_mul, Matrix.smul_mul, Matrix.one_mul, ip_add_right, ip_smul_right, ip_self]
    have h3 : 0 ≤ ip Y (P * Y) := by
      rw [ip_eq_trace, ← Matrix.mul_assoc]
      have := (hP.conjTranspose_mul_mul_same Y).trace_nonneg
      exact (Complex.le_def.1 this).1
    linarith
  have h3 : size Y * size Y * t ≤ size Y * size X := by
    have h4 := abs_ip_le Y (-Complex.I • X)
    rw [size_I] at h4
    have h5 := le_abs_self (ip Y (-Complex.I • X))
    have h6 := size_sq Y
    nlinarith
  rw [le_div_iff₀ ht]
  rcases (size_nonneg Y).eq_or_lt with h0 | h0
  · rw [← h0, zero_mul]
    exact size_nonneg X
  · exact le_of_mul_le_mul_left (by linarith) h0

theorem damped_right {M P : Matrix o o ℂ} {t : ℝ} (ht : 0 < t) (hP : P.PosSemidef)
    (hM : -damping M = ((2 * t : ℝ) : ℂ) • (1 : Matrix o o ℂ) + P) (hu : IsUnit M.det) (X : Matrix o o ℂ) :
    size (X * M⁻¹) ≤ size X / t := by
  have hu' : IsUnit (-Mᴴ).det := by
    rw [← Matrix.isUnit_iff_isUnit_det] at hu ⊢
    exact (hu.star).neg
  have h1 : -damping (-Mᴴ) = -damping M := by
    unfold damping
    rw [Matrix.conjTranspose_neg, Matrix.conjTranspose_conjTranspose]
    congr 2
    abel
  have h2 := damped_left ht hP (h1.trans hM) hu' Xᴴ
  have h3 : (-Mᴴ)⁻¹ * Xᴴ = -(X * M⁻¹)ᴴ := by
    rw [Matrix.conjTranspose_mul, Matrix.conjTranspose_nonsing_inv]
    have : (-Mᴴ)⁻¹ = -(Mᴴ)⁻¹ := by
      refine Matrix.inv_eq_right_inv ?_
      rw [neg_mul_neg, Matrix.mul_nonsing_inv]
      rw [← Matrix.isUnit_iff_isUnit_det] at hu ⊢
      exact hu.star
    rw [this, Matrix.neg_mul]
  rwa [h3, size_neg, size_conj, size_conj] at h2

/-- C133: at every frequency in the upper half plane the lattice Green's function changes by at most the change of dispersion, self
energy and chemical potential, divided by the square of the distance to the real axis. -/
theorem C133_dyson (ranks ranks' : ℕ) (hr : 0 < ranks) (hr' : 0 < ranks') (mu mu' : ℂ) (hmu : mu.im = 0) (hmu' : mu'.im = 0)
    (val : W → ℂ) (wmesh : List W) (kmesh : List K) (hw : wmesh.Nodup) (hk : kmesh.Nodup) (e e' : K → Matrix o o ℂ)
    (he : ∀ k, (e k).IsHermitian) (he' : ∀ k, (e' k).IsHermitian) (sigma sigma' : Sigma W K o ℂ) (idelta : ℂ) (w : W) (k : K)
    (hwm : w ∈ wmesh) (hkm : k ∈ kmesh) (S S' : Matrix o o ℂ) (hS : SelfEnergyAt sigma w k S) (hS' : SelfEnergyAt sigma' w k S')
    (hpos : (damping S).PosSemidef) (hpos' : (damping S').PosSemidef) (hz : 0 < (val w + idelta).im) :
    size (latticeDysonGXk ranks' mu' val wmesh kmesh e' sigma' idelta (w, k)
        - latticeDysonGXk ranks mu val wmesh kmesh e sigma idelta (w, k))
      ≤ size ((e' k + S' - mu' • 1) - (e k + S - mu • 1)) / (val w + idelta).im ^ 2 := by
  rw [GXk_eq ranks hr mu val wmesh kmesh hw hk e sigma idelta w k hwm hkm S hS,
    GXk_eq ranks' hr' mu' val wmesh kmesh hw hk e' sigma' idelta w k hwm hkm S' hS']
  set z := val w + idelta
  obtain ⟨h1, -⟩ := point hz hmu (he k) hpos
  obtain ⟨h1', -⟩ := point hz hmu' (he' k) hpos'
  have d := damping_denominator (z := z) hmu (he k) (S := S)
  have d' := damping_denominator (z := z) hmu' (he' k) (S := S')
  set M := (z + mu) • (1 : Matrix o o ℂ) - e k - S with hM
  set M' := (z + mu') • (1 : Matrix o o ℂ) - e' k - S' with hM'
  have e1 : M'⁻¹ - M⁻¹ = M'⁻¹ * ((e' k + S' - mu' • 1) - (e k + S - mu • 1)) * M⁻¹ := by
    have e2 : (e' k + S' - mu' • (1 : Matrix o o ℂ)) - (e k + S - mu • 1) = M - M' := by
      rw [hM, hM']
      module
    rw [e2, Matrix.mul_sub, Matrix.sub_mul, Matrix.mul_assoc, Matrix.mul_nonsing_inv _ h1, Matrix.mul_one,
      Matrix.nonsing_inv_mul _ h1', Matrix.one_mul]
  rw [e1]
  refine (damped_right hz hpos d h1 _).trans ?_
  rw [sq, ← div_div]
  exact div_le_div_of_nonneg_right (damped_left hz hpos' d' h1' _) hz.le

/-- C133: the same for the local Green's function. -/
theorem C133_dyson_local (ranks ranks' : ℕ) (hr : 0 < ranks) (hr' : 0 < ranks') (mu mu' : ℂ) (hmu : mu.im = 0) (hmu' : mu'.im = 0)
    (val : W → ℂ) (wmesh : List W) (kmesh : List K) (hw : wmesh.Nodup) (hk : kmesh.Nodup) (hne : kmesh ≠ []) (e e' : K → Matrix o o ℂ)
    (he : ∀ k, (e k).IsHermitian) (he' : ∀ k, (e' k).IsHermitian) (sigma sigma' : Sigma W K o ℂ) (idelta : ℂ) (w : W)
    (hwm : w ∈ wmesh) (S S' : K → Matrix o o ℂ) (hS : ∀ k, SelfEnergyAt sigma w k (S k)) (hS' : ∀ k, SelfEnergyAt sigma' w k (S' k))
    (hpos : ∀ k, (damping (S k)).PosSemidef) (hpos' : ∀ k, (damping (S' k)).PosSemidef) (hz : 0 < (val w + idelta).im) (d : ℝ)
    (hd : ∀ k ∈ kmesh, size ((e' k + S' k - mu' • 1) - (e k + S k - mu • 1)) ≤ d) :
    size (latticeDysonGX ranks' mu' val wmesh kmesh e' sigma' idelta w - latticeDysonGX ranks mu val wmesh kmesh e sigma idelta w)
      ≤ d / (val w + idelta).im ^ 2 := by
  rw [C05_local_is_average ranks ranks hr hr mu val wmesh kmesh hw hk e sigma idelta w hwm,
    C05_local_is_average ranks' ranks' hr' hr' mu' val wmesh kmesh hw hk e' sigma' idelta w hwm]
  have hN : (0 : ℝ) < kmesh.length := by exact_mod_cast List.length_pos_iff.2 hne
  have hk' := fun k (hkm : k ∈ kmesh) => (C133_dyson ranks ranks' hr hr' mu mu' hmu hmu' val wmesh kmesh hw hk e e' he he' sigma sigma'
    idelta w k hwm hkm (S k) (S' k) (hS k) (hS' k) (hpos k) (hpos' k) hz).trans (div_le_div_of_nonneg_right (hd k hkm) (by positivity))
  set g := fun k => latticeDysonGXk ranks mu val wmesh kmesh e sigma idelta (w, k)
  set g' := fun k => latticeDysonGXk ranks' mu' val wmesh kmesh e' sigma' idelta (w, k)
  set b := d / (val w + idelta).im ^ 2
  have hsum : ∀ l : List K, (∀ k ∈ l, size (g' k - g k) ≤ b) → size ((l.map g').sum - (l.map g).sum) ≤ l.length * b := by
    intro l
    induction l with
    | nil => intro _; simp [size, size2]
    | cons k l ih =>
      intro h
      have h1 := ih fun k hk => h k (List.mem_cons_of_mem _ hk)
      have h2 := h k List.mem_cons_self
      simp only [List.map_cons, List.sum_cons, List.length_cons, Nat.cast_add, Nat.cast_one]
      rw [add_sub_add_comm]
      refine (size_add_le _ _).trans ?_
      linarith
  rw [← smul_sub, show ((kmesh.length : ℂ))⁻¹ = ((kmesh.length : ℝ)⁻¹ : ℝ) by push_cast; rfl, size_smul,
    abs_of_pos (inv_pos.2 hN), inv_mul_le_iff₀ hN]
  exact hsum kmesh hk'

end Dyson

/-! ## Density matrices -/

section Density

open Verif.HartreeFock Verif.Subsystem
open Verif.HfResponse (fermiMatrix)

variable {n : ℕ} [NeZero n] {κ : Type*} [Fintype κ] [Nonempty κ]

/-- root mean square over the momenta -/
def rms (X : κ → Matrix (Fin n) (Fin n) ℂ) : ℝ := Real.sqrt ((Fintype.card κ : ℝ)⁻¹ * ∑ k, size2 (X k))

theorem rms_nonneg (X : κ → Matrix (Fin n) (Fin n) ℂ) : 0 ≤ rms X := Real.sqrt_nonneg _

theorem rms_sq (X : κ → Matrix (Fin n) (Fin n) ℂ) : rms X ^ 2 = (Fintype.card κ : ℝ)⁻¹ * ∑ k, size2 (X k) :=
  Real.sq_sqrt (mul_nonneg (by positivity) (Finset.sum_nonneg fun k _ => size2_nonneg _))

theorem mean_size_le (X Y : κ → Matrix (Fin n) (Fin n) ℂ) :
    (Fintype.card κ : ℝ)⁻¹ * ∑ k, size (X k) * size (Y k) ≤ rms X * rms Y := by
  have hK : (0 : ℝ) < Fintype.card κ := by exact_mod_cast Fintype.card_pos
  have h := Real.sum_mul_le_sqrt_mul_sqrt Finset.univ (fun k => size (X k)) fun k => size (Y k)
  simp only [size_sq] at h
  unfold rms
  rw [Real.sqrt_mul (by positivity), Real.sqrt_mul (by positivity)]
  have h2 : Real.sqrt (Fintype.card κ : ℝ)⁻¹ * Real.sqrt (Fintype.card κ : ℝ)⁻¹ = (Fintype.card κ : ℝ)⁻¹ :=
    Real.mul_self_sqrt (by positivity)
  calc (Fintype.card κ : ℝ)⁻¹ * ∑ k, size (X k) * size (Y k)
      ≤ (Fintype.card κ : ℝ)⁻¹ * (Real.sqrt (∑ k, size2 (X k)) * Real.sqrt (∑ k, size2 (Y k))) :=
        mul_le_mul_of_nonneg_left h (by positivity)
    _ = _ := by
        generalize Real.sqrt (Fintype.card κ : ℝ)⁻¹ = r at h2 ⊢
        rw [← h2]
        ring

/-- a field that is the same at all momenta -/
theorem rms_add_le (X : κ → Matrix (Fin n) (Fin n) ℂ) (B : Matrix (Fin n) (Fin n) ℂ) : rms (fun k => X k + B) ≤ rms X + size B := by
  have hK : (0 : ℝ) < Fintype.card κ := by exact_mod_cast Fintype.card_pos
  have hB : rms (fun _ : κ => B) = size B := by
    unfold rms size
    rw [Finset.sum_const, Finset.card_univ, nsmul_eq_mul, inv_mul_cancel_left₀ hK.ne']
  have h1 := mean_size_le X fun _ => B
  rw [hB] at h1
  refine (sq_le_sq₀ (rms_nonneg _) (add_nonneg (rms_nonneg _) (size_nonneg _))).1 ?_
  have h2 : (Fintype.card κ : ℝ)⁻¹ * ∑ k, size2 (X k + B)
      ≤ (Fintype.card κ : ℝ)⁻¹ * ∑ k, (size2 (X k) + 2 * (size (X k) * size B) + size2 B) := by
    refine mul_le_mul_of_nonneg_left (Finset.sum_le_sum fun k _ => ?_) (by positivity)
    have h3 := size_add_le (X k) B
    have h4 := mul_self_le_mul_self (size_nonneg _) h3
    rw [← size_sq, ← size_sq, ← size_sq]
    nlinarith
  rw [rms_sq]
  refine h2.trans (le_of_eq_of_le ?_ (show rms X ^ 2 + 2 * ((Fintype.card κ : ℝ)⁻¹ * ∑ k, size (X k) * size B) + size B ^ 2 ≤ _ by
    nlinarith))
  rw [rms_sq, size_sq, Finset.sum_add_distrib, Finset.sum_add_distrib, ← Finset.mul_sum, Finset.sum_const, Finset.card_univ,
    nsmul_eq_mul]
  generalize ∑ k, size2 (X k) = s1
  generalize ∑ k, size (X k) * size B = s2
  field_simp

/-- C133: the thermal density matrix changes by at most `β/4` times the change of the bands (root mean square over the momenta), at a
fixed chemical potential and at a fixed number of particles. -/
theorem C133_density {beta : ℝ} (hb : 0 < beta) {h h' : κ → Matrix (Fin n) (Fin n) ℂ} (hh : ∀ k, (h k).IsHermitian)
    (hh' : ∀ k, (h' k).IsHermitian) {mu mu' : ℝ}
    (hN : mu = mu' ∨ Matrix.trace (thermalDensity beta h mu) = Matrix.trace (thermalDensity beta h' mu')) :
    size (thermalDensity beta h' mu' - thermalDensity beta h mu) ≤ beta / 4 * rms fun k => h' k - h k := by
  have hK : (0 : ℝ) < Fintype.card κ := by exact_mod_cast Fintype.card_pos
  set D : κ → Matrix (Fin n) (Fin n) ℂ := fun k => fermiMatrix beta (h' k - (mu' : ℂ) • 1) - fermiMatrix beta (h k - (mu : ℂ) • 1)
    with hD
  have e : thermalDensity beta h' mu' - thermalDensity beta h mu = (Fintype.card κ : ℂ)⁻¹ • ∑ k, D k := by
    unfold thermalDensity
    rw [← smul_sub, ← Finset.sum_sub_distrib]
  have e1 : ∀ k, (h' k - (mu' : ℂ) • (1 : Matrix (Fin n) (Fin n) ℂ)) - (h k - (mu : ℂ) • 1)
      = (h' k - h k) - ((mu' - mu : ℝ) : ℂ) • 1 := by
    intro k
    push_cast
    rw [sub_smul]
    abel
  have e3 : ∀ Y : Matrix (Fin n) (Fin n) ℂ, ip Y 1 = (Matrix.trace Y).re := by
    intro Y
    rw [ip_eq_trace, Matrix.mul_one, Matrix.trace_conjTranspose, RCLike.star_def, Complex.conj_re]
  have h4 : ∀ k, 4 / beta * size2 (D k) ≤ -ip (D k) (h' k - h k) + (mu' - mu) * (Matrix.trace (D k)).re := by
    intro k
    have := fermiMatrix_monotone hb (hh' k) (hh k) mu' mu
    rw [e1 k, ip_sub_right, ip_smul_right, e3] at this
    linarith
  have h5 : (mu' - mu) * ((Fintype.card κ : ℝ)⁻¹ * ∑ k, (Matrix.trace (D k)).re) = 0 := by
    rcases hN with hN | hN
    · rw [hN, sub_self, zero_mul]
    · have h6 : Matrix.trace ((Fintype.card κ : ℂ)⁻¹ • ∑ k, D k) = 0 := by rw [← e, Matrix.trace_sub, hN, sub_self]
      have h7 := congrArg Complex.re h6
      rw [Matrix.trace_smul, Matrix.trace_sum, smul_eq_mul, show (Fintype.card κ : ℂ)⁻¹ = ((Fintype.card κ : ℝ)⁻¹ : ℝ) by push_cast; rfl,
        Complex.re_ofReal_mul, Complex.re_sum, Complex.zero_re] at h7
      rw [h7, mul_zero]
  have h6 : 4 / beta * rms D ^ 2 ≤ rms D * rms fun k => h' k - h k := by
    have h8 := mean_size_le D fun k => h' k - h k
    refine le_trans ?_ h8
    rw [rms_sq]
    have h9 : (Fintype.card κ : ℝ)⁻¹ * ∑ k, 4 / beta * size2 (D k)
        ≤ (Fintype.card κ : ℝ)⁻¹ * ∑ k, (size (D k) * size (h' k - h k) + (mu' - mu) * (Matrix.trace (D k)).re) := by
      refine mul_le_mul_of_nonneg_left (Finset.sum_le_sum fun k _ => (h4 k).trans ?_) (by positivity)
      have := neg_le_of_abs_le (abs_ip_le (D k) (h' k - h k))
      linarith
    rw [Finset.sum_add_distrib, ← Finset.mul_sum, ← Finset.mul_sum] at h9
    nlinarith
  have h7 : rms D ≤ beta / 4 * rms fun k => h' k - h k := by
    rcases (rms_nonneg D).eq_or_lt with h0 | h0
    · rw [← h0]
      exact mul_nonneg (by positivity) (rms_nonneg _)
    · refine le_of_mul_le_mul_left ?_ h0
      have h9 : 4 / beta * rms D ^ 2 * (beta / 4) = rms D * rms D := by
        field_simp
      have := mul_le_mul_of_nonneg_right h6 (show 0 ≤ beta / 4 by positivity)
      linarith
  refine le_trans ?_ h7
  rw [e]
  refine Real.sqrt_le_sqrt ?_
  exact size2_mean D

/-- C133: at weak coupling the self-consistent density matrix changes by at most `β/4 / (1 - βc/4)` times the change of the
dispersion and of the interaction. -/
theorem C133_mean_field {beta c : ℝ} (hb : 0 < beta) {U U' : Operators.T4 n} (hc : Bounded U c) (hq : beta * c / 4 < 1)
    {ek ek' : κ → Matrix (Fin n) (Fin n) ℂ} {rho rho' : Matrix (Fin n) (Fin n) ℂ} {mu mu' : ℝ}
    (hr : rho.IsHermitian) (hr' : rho'.IsHermitian)
    (hh : ∀ k, (ek k + meanField U rho).IsHermitian) (hh' : ∀ k, (ek' k + meanField U' rho').IsHermitian)
    (hs : Solution U beta mu ek rho) (hs' : Solution U' beta mu' ek' rho') (hN : mu = mu' ∨ Matrix.trace rho = Matrix.trace rho') :
    size (rho' - rho) ≤ beta / 4 / (1 - beta * c / 4)
      * (rms (fun k => ek' k - ek k) + size (meanField (fun a b c d => U' a b c d - U a b c d) rho')) := by
  have h1 := C133_density hb hh hh' (mu := mu) (mu' := mu') (by rwa [sol_eq hs, sol_eq hs'])
  rw [sol_eq hs, sol_eq hs'] at h1
  have e : ∀ k, (ek' k + meanField U' rho') - (ek k + meanField U rho)
      = (ek' k - ek k) + (meanField (fun a b c d => U' a b c d - U a b c d) rho' + meanField U (rho' - rho)) := by
    intro k
    have e1 : meanField U' rho' = meanField (fun a b c d => U' a b c d - U a b c d) rho' + meanField U rho' := by
      ext b a
      rw [Matrix.add_apply]
      unfold meanField
      rw [← Finset.sum_add_distrib]
      refine Finset.sum_congr rfl fun c _ => ?_
      rw [← Finset.sum_add_distrib]
      refine Finset.sum_congr rfl fun d _ => ?_
      ring
    rw [e1, ← meanField_sub]
    abel
  simp only [e] at h1
  have h2 := rms_add_le (fun k => ek' k - ek k) (meanField (fun a b c d => U' a b c d - U a b c d) rho' + meanField U (rho' - rho))
  have h3 := size_add_le (meanField (fun a b c d => U' a b c d - U a b c d) rho') (meanField U (rho' - rho))
  have h4 := (hc.2 (rho' - rho) (hr'.sub hr)).2
  have h5 : (0 : ℝ) < 1 - beta * c / 4 := by linarith
  rw [div_mul_eq_mul_div, le_div_iff₀ h5]
  have h6 := mul_le_mul_of_nonneg_left (h2.trans (add_le_add_right (h3.trans (add_le_add_right h4 _)) _)) (show 0 ≤ beta / 4 by positivity)
  nlinarith

end Density

end Verif.Stable
