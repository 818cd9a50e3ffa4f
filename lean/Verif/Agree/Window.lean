import Verif.Agree.Bse

/-!
# C130: the Bethe-Salpeter solver with the RPA vertex on growing frequency windows
-/

noncomputable section

set_option linter.unusedSectionVars false

namespace Verif.Agree

open Verif.Parallel Verif.Fourier Verif.Bubble Verif.Bse Filter Topology
open Verif.Rpa (pairMat matTensor rpaPoint swapPairs swapLast solveRpaPH)
open scoped Matrix.Norms.Operator

section Limit

variable {o : Type} [Fintype o] [DecidableEq o] {α : Type*} {l : Filter α}

theorem pairMat_tendsto {x : α → Bubble.T4 o} {y : Bubble.T4 o} (h : ∀ a b c d, Tendsto (fun s => x s a b c d) l (𝓝 (y a b c d))) :
    Tendsto (fun s => pairMat (x s)) l (𝓝 (pairMat y)) :=
  tendsto_pi_nhds.2 fun A => tendsto_pi_nhds.2 fun B => h A.1 A.2 B.1 B.2

theorem denominator_tendsto {x : α → Bubble.T4 o} {y : Bubble.T4 o} (h : ∀ a b c d, Tendsto (fun s => x s a b c d) l (𝓝 (y a b c d)))
    (U : Bubble.T4 o) :
    Tendsto (fun s => 1 - pairMat (x s) * pairMat U) l (𝓝 (1 - pairMat y * pairMat U)) :=
  tendsto_const_nhds.sub ((pairMat_tendsto h).mul_const _)

/-- the equation stays regular near a regular point -/
theorem regular_eventually {x : α → Bubble.T4 o} {y : Bubble.T4 o} (h : ∀ a b c d, Tendsto (fun s => x s a b c d) l (𝓝 (y a b c d)))
    (U : Bubble.T4 o) (hu : IsUnit (1 - pairMat y * pairMat U).det) :
    ∀ᶠ s in l, IsUnit (1 - pairMat (x s) * pairMat U).det := by
  have h1 : Tendsto (fun s => (1 - pairMat (x s) * pairMat U).det) l (𝓝 (1 - pairMat y * pairMat U).det) :=
    ((Continuous.matrix_det continuous_id).tendsto _).comp (denominator_tendsto h U)
  have h2 : ∀ᶠ z in 𝓝 (1 - pairMat y * pairMat U).det, z ≠ 0 := isOpen_ne.mem_nhds hu.ne_zero
  exact (h1.eventually h2).mono fun s hs => isUnit_iff_ne_zero.2 hs

/-- the RPA susceptibility depends continuously on the bubble -/
theorem rpaPoint_tendsto {x : α → Bubble.T4 o} {y : Bubble.T4 o} (h : ∀ a b c d, Tendsto (fun s => x s a b c d) l (𝓝 (y a b c d)))
    (U : Bubble.T4 o) (hu : IsUnit (1 - pairMat y * pairMat U).det) (a b c d : o) :
    Tendsto (fun s => rpaPoint (x s) U a b c d) l (𝓝 (rpaPoint y U a b c d)) := by
  have hc : ContinuousAt (fun M : Matrix (o × o) (o × o) ℂ => M⁻¹) (1 - pairMat y * pairMat U) := by
    have hu' : IsUnit (1 - pairMat y * pairMat U) := (Matrix.isUnit_iff_isUnit_det _).2 hu
    have := NormedRing.inverse_continuousAt hu'.unit
    rw [IsUnit.unit_spec] at this
    refine this.congr (Eventually.of_forall fun M => ?_)
    exact (Matrix.nonsing_inv_eq_ringInverse M).symm
  have h3 := (hc.tendsto.comp (denominator_tendsto h U)).mul (pairMat_tendsto h)
  exact ((continuous_id.matrix_elem (a, b) (c, d)).tendsto _).comp h3

end Limit

section Window

variable {d : ℕ} {n : Fin d → ℕ} [∀ i, NeZero (n i)] {o : Type} [Fintype o] [DecidableEq o]
variable {ranks : ℕ} (hr : 0 < ranks) (beta : ℝ) (hb : 0 < beta) {rmesh : List (Lat n)} (hnd : rmesh.Nodup)
  (hall : ∀ r, r ∈ rmesh) {mesh : List (Lat n × ℤ)} {wkmesh : List (ℤ × Lat n)} (hm : mesh.Nodup) (hm' : wkmesh.Nodup)

include hr hb hnd hall hm'

/-- the sums over growing windows converge to the bubble of the imaginary time route at the opposite frequency -/
theorem summed_tendsto (p : Poles n o) (k : Lat n) (w : ℤ) (hp' : (w, k) ∈ wkmesh) (a b c e : o) :
    Tendsto (fun S : Finset ℤ => summedBubble (beta : ℂ) (fun nu : S => exactChi0 beta p w nu.1 k) a b c e) atTop
      (𝓝 (imtimeRoute ranks beta rmesh p (-w) k a b c e)) := by
  refine (C92_routes_partial hr hr beta hb hnd hall hm' p w k hp' a b c e).congr fun S => ?_
  have h := C02_distributedAssign ranks hr wkmesh hm' (fun w : ℤ × Lat n => fun a b c d =>
    (∑ nu : S, chi0nFromGwk (beta : ℂ) (p.freq beta) w.1 w.2 nu.1 a b c d) / ((beta : ℂ) * beta)) (w, k)
  rw [imfreqRoute, chi0qSumNu, h, if_pos hp', summedBubble, pow_two]
  simp only [exactChi0_eq]

include hm

/-- C130 (growing windows), for a bubble that is even in the frequency, in particular at zero frequency: for the vertex of
`get_gamma_rpa` on growing windows the result of `solve_lattice_bse`, with its correction for the frequencies outside of the
window, converges to what `solve_rpa_PH` returns for the bubble from imaginary time that the same function uses for the
correction. Missing: complex interactions, see `C130_bse_rpa_violated`, and other frequencies, see `C130_window_limit`. -/
theorem C130_window_partial (p : Poles n o) (U : Bubble.T4 o) (hU : ∀ a b c d, U b a d c = U a b c d) (k : Lat n) (w : ℤ)
    (hp : (k, w) ∈ mesh) (hp' : (w, k) ∈ wkmesh)
    (heven : imtimeRoute ranks beta rmesh p (-w) k = imtimeRoute ranks beta rmesh p w k)
    (hdet : IsUnit (1 - pairMat (imtimeRoute ranks beta rmesh p w k) * pairMat U).det) (a b c e : o) :
    Tendsto (fun S : Finset ℤ =>
        windowSolution ranks beta mesh wkmesh rmesh p S (getGammaRpa (beta : ℂ) U) (k, w) a b c e) atTop
      (𝓝 (solveRpaPH ranks wkmesh (fun x => imtimeRoute ranks beta rmesh p x.1 x.2) U (w, k) a b c e)) := by
  have hs : swapPairs U = U := by funext a b c d; exact hU a b c d
  have h1 := summed_tendsto hr beta hb hnd hall hm' p k w hp'
  rw [heven] at h1
  have h2 := rpaPoint_tendsto h1 U hdet a b c e
  have h3 : Tendsto (fun S : Finset ℤ => windowBse beta p S (getGammaRpa (beta : ℂ) U) k w a b c e) atTop
      (𝓝 (rpaPoint (imtimeRoute ranks beta rmesh p w k) U a b c e)) := by
    refine h2.congr' ((regular_eventually h1 U hdet).mono fun S hS => ?_)
    have h := bse_rpa_point (W := ℤ) (beta : ℂ) (fun nu : S => exactChi0 beta p w nu.1 k) U w (by rw [hs]; exact hS)
    rw [hs] at h
    rw [← h]
    rfl
  have h4 := C99_tail_partial hr beta hb hnd hall hm hm' p (fun S => getGammaRpa (beta : ℂ) U) k w hp hp' a b c e
  rw [heven, sub_self] at h4
  have h5 := h4.add h3
  rw [zero_add] at h5
  rw [Rpa.solveRpaPH_apply ranks hr _ hm' _ _ _ hp']
  exact h5.congr fun S => sub_add_cancel _ _

/-- C130 (growing windows), every frequency and interaction: the limit is the documented RPA of the bubble at the opposite
frequency plus the difference of the two bubbles. -/
theorem C130_window_limit (p : Poles n o) (U : Bubble.T4 o) (k : Lat n) (w : ℤ) (hp : (k, w) ∈ mesh) (hp' : (w, k) ∈ wkmesh)
    (hdet : IsUnit (1 - pairMat (imtimeRoute ranks beta rmesh p (-w) k) * pairMat (swapPairs U)).det) :
    ∃ chi : Bubble.T4 o, Rpa.DocumentedRpa (imtimeRoute ranks beta rmesh p (-w) k) U chi ∧ ∀ a b c e,
      Tendsto (fun S : Finset ℤ =>
        windowSolution ranks beta mesh wkmesh rmesh p S (getGammaRpa (beta : ℂ) U) (k, w) a b c e) atTop
      (𝓝 (chi a b c e + (imtimeRoute ranks beta rmesh p w k a b c e - imtimeRoute ranks beta rmesh p (-w) k a b c e))) := by
  refine ⟨rpaPoint (imtimeRoute ranks beta rmesh p (-w) k) (swapPairs U), ?_, fun a b c e => ?_⟩
  · rw [Rpa.documentedRpa_iff, Rpa.unswappedRpa_iff]
    exact Rpa.rpa_eq_of_unit _ _ hdet
  have h1 := summed_tendsto hr beta hb hnd hall hm' p k w hp'
  have h2 := rpaPoint_tendsto h1 (swapPairs U) hdet a b c e
  have h3 : Tendsto (fun S : Finset ℤ => windowBse beta p S (getGammaRpa (beta : ℂ) U) k w a b c e) atTop
      (𝓝 (rpaPoint (imtimeRoute ranks beta rmesh p (-w) k) (swapPairs U) a b c e)) := by
    refine h2.congr' ((regular_eventually h1 _ hdet).mono fun S hS => ?_)
    rw [← bse_rpa_point (W := ℤ) (beta : ℂ) (fun nu : S => exactChi0 beta p w nu.1 k) U w hS]
    rfl
  have h4 := C99_tail_partial hr beta hb hnd hall hm hm' p (fun S => getGammaRpa (beta : ℂ) U) k w hp hp' a b c e
  refine (h3.add h4).congr fun S => ?_
  ring

end Window

end Verif.Agree
