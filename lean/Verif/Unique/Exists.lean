import Verif.Unique.Props
import Mathlib.Analysis.Matrix.Normed
import Mathlib.Topology.MetricSpace.Contracting
import Mathlib.Analysis.Normed.Module.FiniteDimension

/-!
# C132: at weak coupling the mean-field equations have a solution
-/

set_option linter.unusedSectionVars false

noncomputable section

namespace Verif.Unique

open Complex Matrix Verif.HartreeFock Verif.Subsystem Set

variable {n : ℕ}

section Banach

attribute [local instance] Matrix.frobeniusNormedAddCommGroup Matrix.frobeniusNormedSpace

theorem size_eq_norm (X : Matrix (Fin n) (Fin n) ℂ) : size X = ‖X‖ := by
  rw [Matrix.frobenius_norm_def, size, size2, Real.sqrt_eq_rpow]
  simp only [Real.rpow_two]

/-- a map of hermitian matrices that brings them closer has a fixed point -/
theorem fixed_point {F : Matrix (Fin n) (Fin n) ℂ → Matrix (Fin n) (Fin n) ℂ} (hF : ∀ X, X.IsHermitian → (F X).IsHermitian) {q : ℝ}
    (h0 : 0 ≤ q) (h1 : q < 1) (hc : ∀ X Y, X.IsHermitian → Y.IsHermitian → size (F X - F Y) ≤ q * size (X - Y)) :
    ∃ X, X.IsHermitian ∧ F X = X := by
  set s : Set (Matrix (Fin n) (Fin n) ℂ) := {X | X.IsHermitian} with hs
  have hclosed : IsClosed s := by
    have hc : Continuous fun X : Matrix (Fin n) (Fin n) ℂ => Xᴴ := continuous_id.matrix_conjTranspose
    exact isClosed_eq hc continuous_id
  have hcomp : CompleteSpace (Matrix (Fin n) (Fin n) ℂ) := FiniteDimensional.complete ℂ _
  have hmaps : MapsTo F s s := hF
  have hcon : ContractingWith ⟨q, h0⟩ (hmaps.restrict F s s) := by
    refine ⟨by exact_mod_cast h1, LipschitzWith.of_dist_le_mul fun X Y => ?_⟩
    have := hc X.1 Y.1 X.2 Y.2
    rw [size_eq_norm, size_eq_norm] at this
    rw [Subtype.dist_eq, Subtype.dist_eq, dist_eq_norm, dist_eq_norm]
    exact this
  obtain ⟨X, hX, hfix, -⟩ := hcon.exists_fixedPoint' hclosed.isComplete hmaps (x := 0) Matrix.isHermitian_zero (edist_ne_top _ _)
  exact ⟨X, hX, hfix⟩

end Banach

variable {κ : Type*} [Fintype κ] [Nonempty κ] [NeZero n] {U : Operators.T4 n} {beta : ℝ} {ek : κ → Matrix (Fin n) (Fin n) ℂ}

/-- C132: at weak coupling there is exactly one solution at every chemical potential. -/
theorem C132_exists {c : ℝ} (hb : 0 < beta) (hc : Bounded U c) (hq : beta * c / 4 < 1) (he : ∀ k, (ek k).IsHermitian) (mu : ℝ) :
    ∃! rho : Matrix (Fin n) (Fin n) ℂ, rho.IsHermitian ∧ Solution U beta mu ek rho := by
  have h0 : 0 ≤ beta * c / 4 := by
    have := hc.1
    positivity
  obtain ⟨X, hX, hfix⟩ := fixed_point (F := fun X => thermalDensity beta (fun k => ek k + meanField U X) mu)
    (fun X hX => thermal_hermitian beta (fun k => (he k).add (hc.2 _ hX).1) mu) h0 hq
    fun X Y hX hY => C132_contraction hb hc he hY hX (Or.inl rfl)
  refine ⟨X, ⟨hX, hfix.symm⟩, fun Y hY => ?_⟩
  exact (C132_unique hb (hc.weak hb hq) (fun k => (he k).add (hc.2 _ hY.1).1) (fun k => (he k).add (hc.2 _ hX).1) hY.2 hfix.symm
    (Or.inl rfl)).1

/-- C132: at weak coupling there is exactly one solution with a given number of particles, and one chemical potential for it. -/
theorem C132_exists_number {c : ℝ} (hb : 0 < beta) (hc : Bounded U c) (hq : beta * c / 4 < 1) (he : ∀ k, (ek k).IsHermitian) {N : ℝ}
    (h0 : 0 < N) (h1 : N < n) :
    ∃! x : Matrix (Fin n) (Fin n) ℂ × ℝ, x.1.IsHermitian ∧ Matrix.trace x.1 = (N : ℂ) ∧ Solution U beta x.2 ek x.1 := by
  have hq0 : 0 ≤ beta * c / 4 := by
    have := hc.1
    positivity
  have hbands : ∀ X : Matrix (Fin n) (Fin n) ℂ, X.IsHermitian → ∀ k, (ek k + meanField U X).IsHermitian :=
    fun X hX k => (he k).add (hc.2 _ hX).1
  have hmu : ∀ X : Matrix (Fin n) (Fin n) ℂ, ∃ mu, X.IsHermitian → filling beta (fun k => ek k + meanField U X) mu = N := by
    intro X
    by_cases hX : X.IsHermitian
    · obtain ⟨mu, hm, -⟩ := C85_exists beta hb _ (hbands X hX) N h0 h1
      exact ⟨mu, fun _ => hm⟩
    · exact ⟨0, fun h => absurd h hX⟩
  choose m hm using hmu
  have htr : ∀ X : Matrix (Fin n) (Fin n) ℂ, X.IsHermitian →
      Matrix.trace (thermalDensity beta (fun k => ek k + meanField U X) (m X)) = (N : ℂ) := fun X hX => by
    rw [trace_thermalDensity beta (m X) _ (hbands X hX), hm X hX]
  obtain ⟨X, hX, hfix⟩ := fixed_point (F := fun X => thermalDensity beta (fun k => ek k + meanField U X) (m X))
    (fun X hX => thermal_hermitian beta (hbands X hX) (m X)) hq0 hq
    fun X Y hX hY => C132_contraction hb hc he hY hX (Or.inr (by rw [htr X hX, htr Y hY]))
  have hX2 : Matrix.trace X = (N : ℂ) := by
    rw [← htr X hX]
    exact congrArg Matrix.trace hfix.symm
  refine ⟨(X, m X), ⟨hX, hX2, hfix.symm⟩, fun y hy => ?_⟩
  have := C132_unique hb (hc.weak hb hq) (hbands _ hy.1) (hbands _ hX) hy.2.2 hfix.symm (Or.inr (by rw [hy.2.1, hX2]))
  exact Prod.ext this.1 this.2

end Verif.Unique
