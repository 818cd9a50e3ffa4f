import Verif.Fock.Number
import Verif.Stable.Props
import Mathlib.Analysis.Calculus.MeanValue
import Mathlib.Analysis.Calculus.Deriv.Basic
import Mathlib.MeasureTheory.Integral.IntervalIntegral.FundThmCalculus

/-!
# C134: grand potentials of different problems

Two self-consistent states at the same temperature, for different bands, interactions and chemical potentials.
-/

set_option linter.unusedSectionVars false

noncomputable section

open scoped Matrix.Norms.Operator

namespace Verif.Compare

open Complex Matrix Filter Verif.Unique Verif.Stable Verif.Subsystem
open Verif.HartreeFock (State DensityOf EnergyOf meanField thermalDensity)
open Verif.HfResponse (fermiMatrix freeGrand wickEnergy)

variable {n : ℕ} [NeZero n] {κ : Type} [Fintype κ] [Nonempty κ]

/-! ## Free particles -/

/-- the grand potential of free particles lies below its tangent -/
theorem freeGrand_tangent {beta : ℝ} (hb : 0 < beta) {H H' : Matrix (Fin n) (Fin n) ℂ} (hH : H.IsHermitian) (hH' : H'.IsHermitian) :
    freeGrand beta H' - freeGrand beta H ≤ (trace (fermiMatrix beta H * (H' - H))).re := by
  set Y := H' - H with hY
  have hYh : Y.IsHermitian := hH'.sub hH
  have hc : ∀ s : ℝ, (H + (s : ℂ) • Y).IsHermitian := by
    intro s
    refine hH.add ?_
    rw [Matrix.IsHermitian, Matrix.conjTranspose_smul, hYh.eq, Complex.star_def, Complex.conj_ofReal]
  have hd : ∀ t : ℝ, HasDerivAt (fun s : ℝ => H + (s : ℂ) • Y) Y t := by
    intro t
    have h1 : HasDerivAt (fun s : ℝ => (s : ℂ)) 1 t := Complex.ofRealCLM.hasDerivAt
    exact ((h1.smul_const Y).const_add H).congr_deriv (one_smul _ _)
  have hg := fun t => Fock.freeGrand_curve hb hc (hd t)
  obtain ⟨c, hc01, he⟩ := exists_hasDerivAt_eq_slope (fun s : ℝ => freeGrand beta (H + (s : ℂ) • Y)) _ zero_lt_one
    (fun t _ => (hg t).continuousAt.continuousWithinAt) fun t _ => hg t
  have e1 : H + ((1 : ℝ) : ℂ) • Y = H' := by rw [Complex.ofReal_one, one_smul, hY]; abel
  have e0 : H + ((0 : ℝ) : ℂ) • Y = H := by rw [Complex.ofReal_zero, zero_smul, add_zero]
  rw [e1, e0, sub_zero, div_one] at he
  rw [← he]
  have hm := fermiMatrix_monotone hb (hc c) hH 0 0
  rw [Complex.ofReal_zero, zero_smul, sub_zero, sub_zero, add_sub_cancel_left, ip_smul_right] at hm
  have hD : (fermiMatrix beta (H + (c : ℂ) • Y) - fermiMatrix beta H).IsHermitian := by
    have h1 := fermiMatrix_hermitian beta (hc c) 0
    have h2 := fermiMatrix_hermitian beta hH 0
    rw [Complex.ofReal_zero, zero_smul, sub_zero] at h1 h2
    exact h1.sub h2
  rw [ip_eq_trace, hD.eq, sub_mul, Matrix.trace_sub, Complex.sub_re] at hm
  have h0 : 0 ≤ 4 / beta * size2 (fermiMatrix beta (H + (c : ℂ) • Y) - fermiMatrix beta H) :=
    mul_nonneg (by positivity) (size2_nonneg _)
  by_contra hlt
  rw [not_le] at hlt
  have := mul_pos hc01.1 (sub_pos.2 hlt)
  linarith

/-! ## The reported grand potential -/

theorem omega_eq {U : Operators.T4 n} {beta : ℝ} (hb : 0 < beta) {ek : κ → Matrix (Fin n) (Fin n) ℂ} {st : State n κ}
    (hh : ∀ k, (ek k + meanField U st.rho).IsHermitian) (hd : DensityOf U beta ek st.rho st) (he : EnergyOf U beta ek st) :
    st.omega.re = (∑ k, freeGrand beta (ek k + meanField U st.rho - (st.mu : ℂ) • 1)) / Fintype.card κ
      - 1 / 2 * (trace (meanField U st.rho * st.rho)).re := by
  have hek : ∀ k, st.ekMF k = ek k + meanField U st.rho := fun k => by rw [hd.bands, hd.mean]
  rw [he.omega, Complex.add_re, Complex.ofReal_re, Fock.omega0_freeGrand hb he fun k => by rw [hek]; exact hh k]
  simp only [hek]
  have e1 : st.eint = -(1 / 2) * trace (meanField U st.rho * st.rho) := by
    rw [← HartreeFock.C47_energy]; exact he.interaction
  have e2 : (-(1 / 2) : ℂ) = ((-(1 / 2) : ℝ) : ℂ) := by push_cast; rfl
  rw [e1, e2, Complex.re_ofReal_mul]
  ring

/-- expectation value per unit cell of the change of the Hamiltonian, from `ek`, `U`, `mu` to `ek'`, `U'`, `mu'`, in the state `st` -/
def change (U U' : Operators.T4 n) (ek ek' : κ → Matrix (Fin n) (Fin n) ℂ) (mu mu' : ℝ) (st : State n κ) : ℝ :=
  (∑ k, trace ((ek' k - ek k) * st.rhok k)).re / Fintype.card κ
    + (wickEnergy (fun a b c d => U' a b c d - U a b c d) st.rho).re - (mu' - mu) * st.ntot.re

theorem meanField_diff (U U' : Operators.T4 n) (X : Matrix (Fin n) (Fin n) ℂ) :
    meanField (fun a b c d => U' a b c d - U a b c d) X = meanField U' X - meanField U X := by
  ext b a
  rw [Matrix.sub_apply]
  unfold meanField
  rw [← Finset.sum_sub_distrib]
  refine Finset.sum_congr rfl fun c _ => ?_
  rw [← Finset.sum_sub_distrib]
  refine Finset.sum_congr rfl fun d _ => ?_
  ring

theorem wick_re (U : Operators.T4 n) (X : Matrix (Fin n) (Fin n) ℂ) :
    (wickEnergy U X).re = 1 / 2 * (trace (meanField U X * X)).re := by
  unfold wickEnergy
  rw [show (1 / 2 : ℂ) = ((1 / 2 : ℝ) : ℂ) by push_cast; rfl, Complex.re_ofReal_mul]

theorem wick_sub {U : Operators.T4 n} (hU : ∀ a b c d, U c d a b = U a b c d) (X Y : Matrix (Fin n) (Fin n) ℂ) :
    (wickEnergy U (X - Y)).re = (wickEnergy U X).re + (wickEnergy U Y).re - (trace (meanField U X * Y)).re := by
  rw [wick_re, wick_re, wick_re, ← meanField_sub, Matrix.sub_mul, Matrix.mul_sub, Matrix.mul_sub, Matrix.trace_sub, Matrix.trace_sub,
    Matrix.trace_sub, HfResponse.meanField_symm U hU Y X]
  simp only [Complex.sub_re]
  ring

section Two

variable {beta : ℝ} (hb : 0 < beta) {U U' : Operators.T4 n}
  {ek ek' : κ → Matrix (Fin n) (Fin n) ℂ} {st st' : State n κ}

include hb in
theorem upper (hU' : ∀ a b c d, U' c d a b = U' a b c d) (hh : ∀ k, (ek k + meanField U st.rho).IsHermitian)
    (hh' : ∀ k, (ek' k + meanField U' st'.rho).IsHermitian) (hd : DensityOf U beta ek st.rho st) (he : EnergyOf U beta ek st)
    (hd' : DensityOf U' beta ek' st'.rho st') (he' : EnergyOf U' beta ek' st') :
    st'.omega.re - st.omega.re ≤ change U U' ek ek' st.mu st'.mu st - (wickEnergy U' (st'.rho - st.rho)).re := by
  have hK : (0 : ℝ) < Fintype.card κ := by exact_mod_cast Fintype.card_pos
  have hK' : (Fintype.card κ : ℂ) ≠ 0 := by exact_mod_cast Fintype.card_ne_zero
  have hmu : ∀ m : ℝ, ((m : ℂ) • (1 : Matrix (Fin n) (Fin n) ℂ)).IsHermitian := fun m => by
    rw [Matrix.IsHermitian, Matrix.conjTranspose_smul, Matrix.conjTranspose_one, Complex.star_def, Complex.conj_ofReal]
  have hek : ∀ k, st.ekMF k = ek k + meanField U st.rho := fun k => by rw [hd.bands, hd.mean]
  have hsum : ∑ k, st.rhok k = (Fintype.card κ : ℂ) • st.rho := by rw [hd.rho, smul_smul, mul_inv_cancel₀ hK', one_smul]
  have h1 : ∀ k, freeGrand beta (ek' k + meanField U' st'.rho - (st'.mu : ℂ) • 1) - freeGrand beta (ek k + meanField U st.rho - (st.mu : ℂ) • 1)
      ≤ (trace ((ek' k - ek k) * st.rhok k)).re
        + (trace ((meanField U' st'.rho - meanField U st.rho - ((st'.mu - st.mu : ℝ) : ℂ) • 1) * st.rhok k)).re := by
    intro k
    refine (freeGrand_tangent hb ((hh k).sub (hmu _)) ((hh' k).sub (hmu _))).trans (le_of_eq ?_)
    rw [← hek, ← hd.rhok, hek, Matrix.trace_mul_comm, ← Complex.add_re, ← Matrix.trace_add, ← Matrix.add_mul]
    congr 3
    push_cast
    module
  have h2 := Finset.sum_le_sum fun k (_ : k ∈ Finset.univ) => h1 k
  rw [Finset.sum_sub_distrib, Finset.sum_add_distrib, ← Complex.re_sum, ← Complex.re_sum, ← Matrix.trace_sum (f := fun k =>
    (meanField U' st'.rho - meanField U st.rho - ((st'.mu - st.mu : ℝ) : ℂ) • 1) * st.rhok k), ← Finset.mul_sum, hsum, mul_smul_comm,
    Matrix.trace_smul, smul_eq_mul, show (Fintype.card κ : ℂ) = ((Fintype.card κ : ℝ) : ℂ) by push_cast; rfl, Complex.re_ofReal_mul,
    Matrix.sub_mul, Matrix.sub_mul, Matrix.trace_sub, Matrix.trace_sub, smul_mul_assoc, Matrix.one_mul, Matrix.trace_smul, smul_eq_mul,
    Complex.sub_re, Complex.sub_re, Complex.re_ofReal_mul, ← hd.number] at h2
  have h3 := div_le_div_of_nonneg_right h2 hK.le
  rw [sub_div, add_div, mul_div_cancel_left₀ _ hK.ne'] at h3
  rw [omega_eq hb hh hd he, omega_eq hb hh' hd' he', change, wick_sub hU', wick_re, wick_re, wick_re, meanField_diff, Matrix.sub_mul,
    Matrix.trace_sub, Complex.sub_re]
  linarith

theorem change_swap (U U' : Operators.T4 n) (ek ek' : κ → Matrix (Fin n) (Fin n) ℂ) (mu mu' : ℝ) (st : State n κ) :
    change U' U ek' ek mu' mu st = -change U U' ek ek' mu mu' st := by
  unfold change
  rw [wick_re, wick_re, meanField_diff, meanField_diff]
  have e1 : ∀ k, trace ((ek k - ek' k) * st.rhok k) = -trace ((ek' k - ek k) * st.rhok k) := by
    intro k
    rw [← neg_sub, Matrix.neg_mul, Matrix.trace_neg]
  simp only [e1]
  rw [Finset.sum_neg_distrib, ← neg_sub (meanField U' st.rho), Matrix.neg_mul, Matrix.trace_neg, Complex.neg_re, Complex.neg_re]
  ring

theorem wick_even (U : Operators.T4 n) (X Y : Matrix (Fin n) (Fin n) ℂ) : (wickEnergy U (X - Y)).re = (wickEnergy U (Y - X)).re := by
  rw [wick_re, wick_re, ← meanField_sub, ← meanField_sub, ← neg_sub, ← neg_sub Y X, neg_mul_neg]

variable (hU : ∀ a b c d, U c d a b = U a b c d) (hU' : ∀ a b c d, U' c d a b = U' a b c d)
  (hh : ∀ k, (ek k + meanField U st.rho).IsHermitian) (hh' : ∀ k, (ek' k + meanField U' st'.rho).IsHermitian)
  (hd : DensityOf U beta ek st.rho st) (he : EnergyOf U beta ek st) (hd' : DensityOf U' beta ek' st'.rho st')
  (he' : EnergyOf U' beta ek' st')

include hb hU hU' hh hh' hd he hd' he'

/-- C134: the difference of the reported grand potentials of any two self-consistent states at one temperature lies between the
expectation values of the difference of the Hamiltonians in the two states, up to the interaction of the difference of the density
matrices with itself. -/
theorem C134_compare :
    change U U' ek ek' st.mu st'.mu st' + (wickEnergy U (st'.rho - st.rho)).re ≤ st'.omega.re - st.omega.re ∧
    st'.omega.re - st.omega.re ≤ change U U' ek ek' st.mu st'.mu st - (wickEnergy U' (st'.rho - st.rho)).re := by
  refine ⟨?_, upper hb hU' hh hh' hd he hd' he'⟩
  have h := upper hb hU hh' hh hd' he' hd he
  rw [change_swap, wick_even] at h
  linarith

/-- C134 at fixed number of particles: the same for the free energy `Omega + mu N`. -/
theorem C134_free_energy (hN : st.ntot = st'.ntot) :
    (∑ k, trace ((ek' k - ek k) * st'.rhok k)).re / Fintype.card κ + (wickEnergy (fun a b c d => U' a b c d - U a b c d) st'.rho).re
        + (wickEnergy U (st'.rho - st.rho)).re
      ≤ (st'.omega.re + st'.mu * st'.ntot.re) - (st.omega.re + st.mu * st.ntot.re) ∧
    (st'.omega.re + st'.mu * st'.ntot.re) - (st.omega.re + st.mu * st.ntot.re)
      ≤ (∑ k, trace ((ek' k - ek k) * st.rhok k)).re / Fintype.card κ + (wickEnergy (fun a b c d => U' a b c d - U a b c d) st.rho).re
        - (wickEnergy U' (st'.rho - st.rho)).re := by
  obtain ⟨h1, h2⟩ := C134_compare hb hU hU' hh hh' hd he hd' he'
  unfold change at h1 h2
  rw [hN] at h2 ⊢
  constructor <;> linarith

end Two

/-- C134: two solutions of one problem. The density matrices can only differ where the interaction gains energy from the difference, and
the grand potentials differ by at most that energy. -/
theorem C134_same {beta : ℝ} (hb : 0 < beta) {U : Operators.T4 n} {ek : κ → Matrix (Fin n) (Fin n) ℂ} {st st' : State n κ}
    (hU : ∀ a b c d, U c d a b = U a b c d) (hh : ∀ k, (ek k + meanField U st.rho).IsHermitian)
    (hh' : ∀ k, (ek k + meanField U st'.rho).IsHermitian) (hd : DensityOf U beta ek st.rho st) (he : EnergyOf U beta ek st)
    (hd' : DensityOf U beta ek st'.rho st') (he' : EnergyOf U beta ek st') (hm : st.mu = st'.mu) :
    (wickEnergy U (st'.rho - st.rho)).re ≤ 0 ∧ |st'.omega.re - st.omega.re| ≤ -(wickEnergy U (st'.rho - st.rho)).re := by
  obtain ⟨h1, h2⟩ := C134_compare hb hU hU hh hh' hd he hd' he'
  have e : ∀ s : State n κ, change U U ek ek st.mu st'.mu s = 0 := by
    intro s
    unfold change
    rw [wick_re, meanField_diff, hm]
    simp
  rw [e] at h1 h2
  refine ⟨by linarith, abs_le.2 ⟨by linarith, by linarith⟩⟩

/-! ## Number of particles -/

/-- C134: at weak coupling the number of particles grows with the chemical potential, with a bounded slope. -/
theorem C134_filling {beta c : ℝ} (hb : 0 < beta) {U : Operators.T4 n} (hc : Bounded U c) (hq : beta * c < 4)
    {ek : κ → Matrix (Fin n) (Fin n) ℂ} {rho rho' : Matrix (Fin n) (Fin n) ℂ} {mu mu' : ℝ}
    (hh : ∀ k, (ek k + meanField U rho).IsHermitian) (hh' : ∀ k, (ek k + meanField U rho').IsHermitian)
    (hs : Solution U beta mu ek rho) (hs' : Solution U beta mu' ek rho') :
    (4 / beta - c) * size2 (rho' - rho) ≤ (mu' - mu) * ((trace rho').re - (trace rho).re) ∧
    (mu ≤ mu' → (trace rho).re ≤ (trace rho').re) ∧
    |(trace rho').re - (trace rho).re| ≤ n / (4 / beta - c) * |mu' - mu| := by
  have hp : 0 < 4 / beta - c := by
    rw [sub_pos, lt_div_iff₀ hb]
    linarith
  have hX : ∀ k, (ek k + meanField U rho') - (ek k + meanField U rho) = meanField U (rho' - rho) := by
    intro k
    rw [← meanField_sub]
    abel
  have h1 := C132_monotone hb hh hh' hX mu mu'
  rw [sol_eq hs, sol_eq hs'] at h1
  have hD : (rho' - rho).IsHermitian := by
    refine Matrix.IsHermitian.sub ?_ ?_
    · rw [hs']; exact thermal_hermitian beta hh' mu'
    · rw [hs]; exact thermal_hermitian beta hh mu
  have h2 := (abs_le.1 (abs_ip_le (rho' - rho) (meanField U (rho' - rho)))).1
  have h3 := mul_le_mul_of_nonneg_left (hc.2 _ hD).2 (size_nonneg (rho' - rho))
  have h4 : size (rho' - rho) * (c * size (rho' - rho)) = c * size2 (rho' - rho) := by rw [← size_sq]; ring
  rw [Matrix.trace_sub, Complex.sub_re] at h1
  have key : (4 / beta - c) * size2 (rho' - rho) ≤ (mu' - mu) * ((trace rho').re - (trace rho).re) := by
    rw [sub_mul]
    linarith
  have hS := size2_nonneg (rho' - rho)
  have ht : ((trace rho').re - (trace rho).re) ^ 2 ≤ n * size2 (rho' - rho) := by
    have h5 := abs_ip_le (1 : Matrix (Fin n) (Fin n) ℂ) (rho' - rho)
    rw [ip_eq_trace, Matrix.conjTranspose_one, Matrix.one_mul, Matrix.trace_sub, Complex.sub_re] at h5
    have h6 := pow_le_pow_left₀ (abs_nonneg _) h5 2
    rw [sq_abs, mul_pow, size_sq, size_sq] at h6
    have h7 : size2 (1 : Matrix (Fin n) (Fin n) ℂ) = n := by
      unfold size2
      have : ∀ a b : Fin n, ‖(1 : Matrix (Fin n) (Fin n) ℂ) a b‖ ^ 2 = if a = b then 1 else 0 := by
        intro a b
        rw [Matrix.one_apply]
        split_ifs <;> simp
      simp [this]
    rwa [h7] at h6
  have h8 : (4 / beta - c) * ((trace rho').re - (trace rho).re) ^ 2 ≤ n * ((mu' - mu) * ((trace rho').re - (trace rho).re)) := by
    have := mul_le_mul_of_nonneg_left ht hp.le
    have h9 := mul_le_mul_of_nonneg_left key (Nat.cast_nonneg (α := ℝ) n)
    linarith
  set x := (trace rho').re - (trace rho).re with hx
  have bound : |x| ≤ n / (4 / beta - c) * |mu' - mu| := by
    rw [div_mul_eq_mul_div, le_div_iff₀ hp]
    by_cases h0 : x = 0
    · rw [h0, abs_zero, zero_mul]
      positivity
    · refine le_of_mul_le_mul_right ?_ (abs_pos.2 h0)
      have e1 : |x| * (4 / beta - c) * |x| = (4 / beta - c) * x ^ 2 := by rw [← sq_abs]; ring
      have e2 : (mu' - mu) * x ≤ |mu' - mu| * |x| := by rw [← abs_mul]; exact le_abs_self _
      rw [e1]
      have := mul_le_mul_of_nonneg_left e2 (Nat.cast_nonneg (α := ℝ) n)
      linarith
  refine ⟨key, fun hm => ?_, bound⟩
  rcases hm.eq_or_lt with h | h
  · rw [h, sub_self, abs_zero, mul_zero] at bound
    have := abs_nonpos_iff.1 bound
    linarith
  · by_contra hlt
    have hx0 : x < 0 := by
      rw [not_le] at hlt
      linarith
    have h9 := mul_neg_of_pos_of_neg (sub_pos.2 h) hx0
    have := mul_nonneg hp.le hS
    linarith

/-! ## Strength of the interaction -/

theorem meanField_scale (U : Operators.T4 n) (l : ℝ) (X : Matrix (Fin n) (Fin n) ℂ) :
    meanField (fun a b c d => (l : ℂ) * U a b c d) X = (l : ℂ) • meanField U X := by
  ext b a
  rw [Matrix.smul_apply, smul_eq_mul]
  unfold meanField
  rw [Finset.mul_sum]
  refine Finset.sum_congr rfl fun c _ => ?_
  rw [Finset.mul_sum]
  refine Finset.sum_congr rfl fun d _ => ?_
  ring

theorem wick_scale (U : Operators.T4 n) (l : ℝ) (X : Matrix (Fin n) (Fin n) ℂ) :
    (wickEnergy (fun a b c d => (l : ℂ) * U a b c d) X).re = l * (wickEnergy U X).re := by
  rw [wick_re, wick_re, meanField_scale, smul_mul_assoc, Matrix.trace_smul, smul_eq_mul, Complex.re_ofReal_mul]
  ring

theorem bounded_scale {U : Operators.T4 n} {c : ℝ} (hc : Bounded U c) (l : ℝ) :
    Bounded (fun a b c d => (l : ℂ) * U a b c d) (|l| * c) := by
  refine ⟨mul_nonneg (abs_nonneg l) hc.1, fun D hD => ?_⟩
  rw [meanField_scale]
  constructor
  · rw [Matrix.IsHermitian, Matrix.conjTranspose_smul, (hc.2 D hD).1.eq, Complex.star_def, Complex.conj_ofReal]
  · rw [size_smul, mul_assoc]
    exact mul_le_mul_of_nonneg_left (hc.2 D hD).2 (abs_nonneg l)

theorem wick_bound {U : Operators.T4 n} {c : ℝ} (hc : Bounded U c) {X : Matrix (Fin n) (Fin n) ℂ} (hX : X.IsHermitian) :
    |(wickEnergy U X).re| ≤ c / 2 * size X ^ 2 := by
  have h1 := abs_ip_le X (meanField U X)
  rw [ip_eq_trace, hX.eq, Matrix.trace_mul_comm] at h1
  have h2 := mul_le_mul_of_nonneg_left (hc.2 X hX).2 (size_nonneg X)
  rw [wick_re, abs_mul, abs_of_pos (by norm_num : (0 : ℝ) < 1 / 2)]
  nlinarith

section Coupling

variable {beta c : ℝ} (hb : 0 < beta) {U : Operators.T4 n} (hc : Bounded U c) (hU : ∀ a b c d, U c d a b = U a b c d)
  {ek : κ → Matrix (Fin n) (Fin n) ℂ} (hek : ∀ k, (ek k).IsHermitian) (st : ℝ → State n κ) (hr : ∀ l, (st l).rho.IsHermitian)
  (hd : ∀ l : ℝ, DensityOf (fun a b c d => (l : ℂ) * U a b c d) beta ek (st l).rho (st l))
  (he : ∀ l : ℝ, EnergyOf (fun a b c d => (l : ℂ) * U a b c d) beta ek (st l))

include hc hek hr in
theorem field_hermitian (l : ℝ) (k : κ) : (ek k + meanField (fun a b c d => (l : ℂ) * U a b c d) (st l).rho).IsHermitian :=
  (hek k).add ((bounded_scale hc l).2 _ (hr l)).1

include hd in
theorem solution (l : ℝ) : Solution (fun a b c d => (l : ℂ) * U a b c d) beta (st l).mu ek (st l).rho := by
  unfold Solution thermalDensity
  rw [(hd l).rho]
  congr 1
  refine Finset.sum_congr rfl fun k _ => ?_
  rw [(hd l).rhok, (hd l).bands, (hd l).mean, (hd l).rho]

include hb hc hek hr hd in
theorem distance {l l0 : ℝ} (hq : beta * (|l| * c) / 4 < 1) (hfix : (st l).mu = (st l0).mu ∨ trace (st l).rho = trace (st l0).rho) :
    size ((st l).rho - (st l0).rho) ≤ beta / 4 / (1 - beta * (|l| * c) / 4) * (|l - l0| * size (meanField U (st l0).rho)) := by
  have h := C133_mean_field hb (bounded_scale hc l) hq (hr l) (hr l0) (field_hermitian hc hek st hr l) (field_hermitian hc hek st hr l0)
    (solution st hd l) (solution st hd l0) hfix
  rw [size_sub_comm]
  refine h.trans (le_of_eq ?_)
  have h0 : rms (fun k => ek k - ek k) = 0 := by simp [rms, size2]
  rw [h0, zero_add, meanField_diff, meanField_scale, meanField_scale, ← sub_smul, ← Complex.ofReal_sub, size_smul, abs_sub_comm]

include hU in
theorem wick_near {X Y : Matrix (Fin n) (Fin n) ℂ} (hc : Bounded U c) (hX : X.IsHermitian) (hY : Y.IsHermitian) :
    |(wickEnergy U X).re - (wickEnergy U Y).re| ≤ c / 2 * size (X - Y) ^ 2 + c * size Y * size (X - Y) := by
  have h1 := wick_sub hU X Y
  have h2 := wick_bound hc (hX.sub hY)
  have h3 := abs_ip_le Y (meanField U (X - Y))
  have h4 := mul_le_mul_of_nonneg_left (hc.2 _ (hX.sub hY)).2 (size_nonneg Y)
  rw [ip_eq_trace, hY.eq, Matrix.trace_mul_comm, ← meanField_sub, Matrix.sub_mul, Matrix.trace_sub, Complex.sub_re, meanField_sub] at h3
  have h5 : (wickEnergy U X).re - (wickEnergy U Y).re = (wickEnergy U (X - Y)).re
      + ((trace (meanField U X * Y)).re - (trace (meanField U Y * Y)).re) := by
    rw [h1, wick_re U Y]
    ring
  rw [h5]
  refine (abs_add_le _ _).trans (add_le_add h2 ?_)
  linarith

/-- a function with a quadratic remainder has a derivative -/
theorem deriv_of_quadratic {F : ℝ → ℝ} {x D K : ℝ} (h : ∀ᶠ y in nhds x, |F y - F x - (y - x) * D| ≤ K * (y - x) ^ 2) :
    HasDerivAt F D x := by
  rw [hasDerivAt_iff_isLittleO]
  have h1 : (fun y => F y - F x - (y - x) • D) =O[nhds x] fun y => ‖y - x‖ ^ 2 := by
    refine Asymptotics.IsBigO.of_bound K (h.mono fun y hy => ?_)
    rw [smul_eq_mul, Real.norm_eq_abs, norm_pow, norm_norm, Real.norm_eq_abs, sq_abs]
    exact hy
  exact h1.trans_isLittleO (Asymptotics.isLittleO_pow_sub_sub x one_lt_two)

include hb hc hU hek hr hd in
theorem coupling_aux {F : ℝ → ℝ} {l0 : ℝ} (hq : beta * (|l0| * c) < 4)
    (hfix : ∀ l, (st l).mu = (st l0).mu ∨ trace (st l).rho = trace (st l0).rho)
    (hlow : ∀ l, (l - l0) * (wickEnergy U (st l).rho).re + l0 * (wickEnergy U ((st l).rho - (st l0).rho)).re ≤ F l - F l0)
    (hup : ∀ l, F l - F l0 ≤ (l - l0) * (wickEnergy U (st l0).rho).re - l * (wickEnergy U ((st l).rho - (st l0).rho)).re) :
    HasDerivAt F (wickEnergy U (st l0).rho).re l0 := by
  obtain ⟨q, hq1, hq2⟩ := exists_between (show beta * (|l0| * c) / 4 < 1 by linarith)
  set R := size (st l0).rho with hR
  set C := beta / 4 / (1 - q) * size (meanField U (st l0).rho) with hC
  have hC0 : 0 ≤ C := mul_nonneg (div_nonneg (by positivity) (by linarith)) (size_nonneg _)
  refine deriv_of_quadratic (K := (|l0| + 1) * (c / 2 * C ^ 2) + c * R * C) ?_
  have e1 : ∀ᶠ l in nhds l0, beta * (|l| * c) / 4 < q :=
    ContinuousAt.eventually_lt (f := fun l : ℝ => beta * (|l| * c) / 4) (by fun_prop) continuousAt_const hq1
  have e2 : ∀ᶠ l in nhds l0, |l - l0| < 1 :=
    ContinuousAt.eventually_lt (f := fun l : ℝ => |l - l0|) (by fun_prop) continuousAt_const (by simp)
  filter_upwards [e1, e2] with l h1 h2
  have hs : size ((st l).rho - (st l0).rho) ≤ C * |l - l0| := by
    refine (distance hb hc hek st hr hd (l0 := l0) (h1.trans hq2) (hfix l)).trans ?_
    rw [hC, mul_assoc, mul_comm (size (meanField U (st l0).rho))]
    refine mul_le_mul_of_nonneg_right ?_ (mul_nonneg (abs_nonneg _) (size_nonneg _))
    exact div_le_div_of_nonneg_left (by positivity) (by linarith) (by linarith)
  have hs2 : size ((st l).rho - (st l0).rho) ^ 2 ≤ C ^ 2 * (l - l0) ^ 2 := by
    have := pow_le_pow_left₀ (size_nonneg _) hs 2
    rwa [mul_pow, sq_abs] at this
  have hc2 : 0 ≤ c / 2 := by have := hc.1; linarith
  have hw : |(wickEnergy U ((st l).rho - (st l0).rho)).re| ≤ c / 2 * (C ^ 2 * (l - l0) ^ 2) :=
    (wick_bound hc ((hr l).sub (hr l0))).trans (mul_le_mul_of_nonneg_left hs2 hc2)
  have hn : |(wickEnergy U (st l).rho).re - (wickEnergy U (st l0).rho).re| ≤ c / 2 * (C ^ 2 * (l - l0) ^ 2) + c * R * (C * |l - l0|) :=
    (wick_near hU hc (hr l) (hr l0)).trans (add_le_add (mul_le_mul_of_nonneg_left hs2 hc2)
      (mul_le_mul_of_nonneg_left hs (mul_nonneg hc.1 (size_nonneg _))))
  have hl : |l| ≤ |l0| + 1 := by
    have := abs_add_le (l - l0) l0
    rw [sub_add_cancel] at this
    linarith
  have hA : 0 ≤ c / 2 * (C ^ 2 * (l - l0) ^ 2) := mul_nonneg hc2 (by positivity)
  have b1 : |l * (wickEnergy U ((st l).rho - (st l0).rho)).re| ≤ (|l0| + 1) * (c / 2 * (C ^ 2 * (l - l0) ^ 2)) := by
    rw [abs_mul]
    exact mul_le_mul hl hw (abs_nonneg _) (by positivity)
  have b2 : |l0 * (wickEnergy U ((st l).rho - (st l0).rho)).re| ≤ |l0| * (c / 2 * (C ^ 2 * (l - l0) ^ 2)) := by
    rw [abs_mul]
    exact mul_le_mul_of_nonneg_left hw (abs_nonneg _)
  have b3 : |(l - l0) * ((wickEnergy U (st l).rho).re - (wickEnergy U (st l0).rho).re)|
      ≤ c / 2 * (C ^ 2 * (l - l0) ^ 2) + c * R * C * (l - l0) ^ 2 := by
    rw [abs_mul]
    refine (mul_le_mul_of_nonneg_left hn (abs_nonneg _)).trans ?_
    rw [mul_add]
    refine add_le_add (mul_le_of_le_one_left hA h2.le) (le_of_eq ?_)
    rw [← sq_abs (l - l0)]
    ring
  have c1 := (abs_le.1 b1)
  have c2 := (abs_le.1 b2)
  have c3 := (abs_le.1 b3)
  have hRC : 0 ≤ c * R * C * (l - l0) ^ 2 := mul_nonneg (mul_nonneg (mul_nonneg hc.1 (size_nonneg _)) hC0) (sq_nonneg _)
  have u := hup l
  have v := hlow l
  rw [abs_le]
  constructor <;> nlinarith

include hU in
theorem scale_symm (l : ℝ) (a b c d : Fin n) : (l : ℂ) * U c d a b = (l : ℂ) * U a b c d := by rw [hU]

theorem wick_scale_sub (U : Operators.T4 n) (l l0 : ℝ) (X : Matrix (Fin n) (Fin n) ℂ) :
    (wickEnergy (fun a b c d => (l : ℂ) * U a b c d - (l0 : ℂ) * U a b c d) X).re = (l - l0) * (wickEnergy U X).re := by
  rw [← wick_scale]
  congr 2
  funext a b c d
  push_cast
  ring

include hb hc hU hek hr hd he

/-- C134 (Hellmann-Feynman): at weak coupling and fixed chemical potential the derivative of the reported grand potential with respect
to the strength of the interaction is the expectation value of the interaction. -/
theorem C134_coupling {l0 : ℝ} (hq : beta * (|l0| * c) < 4) (hmu : ∀ l, (st l).mu = (st l0).mu) :
    HasDerivAt (fun l => (st l).omega.re) (wickEnergy U (st l0).rho).re l0 := by
  have h := fun l => C134_compare hb (scale_symm hU l0) (scale_symm hU l) (field_hermitian hc hek st hr l0)
    (field_hermitian hc hek st hr l) (hd l0) (he l0) (hd l) (he l)
  have e : ∀ (l : ℝ) (s : State n κ), change (fun a b c d => (l0 : ℂ) * U a b c d) (fun a b c d => (l : ℂ) * U a b c d) ek ek (st l0).mu (st l).mu s
      = (l - l0) * (wickEnergy U s.rho).re := by
    intro l s
    unfold change
    rw [wick_scale_sub, hmu l]
    simp
  simp only [e, wick_scale] at h
  exact coupling_aux hb hc hU hek st hr hd hq (fun l => Or.inl (hmu l)) (fun l => (h l).1) fun l => (h l).2

/-- C134 at fixed number of particles: the derivative of the free energy `Omega + mu N`. -/
theorem C134_coupling_number {l0 : ℝ} (hq : beta * (|l0| * c) < 4) (hN : ∀ l, (st l).ntot = (st l0).ntot) :
    HasDerivAt (fun l => (st l).omega.re + (st l).mu * (st l).ntot.re) (wickEnergy U (st l0).rho).re l0 := by
  have h := fun l => C134_free_energy hb (scale_symm hU l0) (scale_symm hU l) (field_hermitian hc hek st hr l0)
    (field_hermitian hc hek st hr l) (hd l0) (he l0) (hd l) (he l) (hN l).symm
  have e : ∀ s : State n κ, (∑ k, trace ((ek k - ek k) * s.rhok k)).re / Fintype.card κ = 0 := by
    intro s
    simp
  simp only [e, wick_scale, wick_scale_sub, zero_add] at h
  refine coupling_aux hb hc hU hek st hr hd hq (fun l => Or.inr ?_) (fun l => (h l).1) fun l => (h l).2
  rw [← (hd l).number, ← (hd l0).number, hN l]

omit he in
theorem wick_continuous {l0 : ℝ} (hq : beta * (|l0| * c) < 4) (hmu : ∀ l, (st l).mu = (st l0).mu) :
    ContinuousAt (fun l => (wickEnergy U (st l).rho).re) l0 := by
  obtain ⟨q, hq1, hq2⟩ := exists_between (show beta * (|l0| * c) / 4 < 1 by linarith)
  have e1 : ∀ᶠ l in nhds l0, beta * (|l| * c) / 4 < q :=
    ContinuousAt.eventually_lt (f := fun l : ℝ => beta * (|l| * c) / 4) (by fun_prop) continuousAt_const hq1
  have hs : Tendsto (fun l => size ((st l).rho - (st l0).rho)) (nhds l0) (nhds 0) := by
    refine squeeze_zero' (g := fun l => beta / 4 / (1 - q) * (|l - l0| * size (meanField U (st l0).rho)))
      (Eventually.of_forall fun l => size_nonneg _) (e1.mono fun l h1 => ?_) ?_
    · refine (distance hb hc hek st hr hd (l0 := l0) (h1.trans hq2) (Or.inl (hmu l))).trans ?_
      refine mul_le_mul_of_nonneg_right ?_ (mul_nonneg (abs_nonneg _) (size_nonneg _))
      exact div_le_div_of_nonneg_left (by positivity) (by linarith) (by linarith)
    · have : ContinuousAt (fun l => beta / 4 / (1 - q) * (|l - l0| * size (meanField U (st l0).rho))) l0 := by fun_prop
      have h := this.tendsto
      simpa using h
  rw [ContinuousAt, tendsto_iff_norm_sub_tendsto_zero]
  refine squeeze_zero (fun l => norm_nonneg _) (fun l => wick_near hU hc (hr l) (hr l0)) ?_
  have := ((hs.pow 2).const_mul (c / 2)).add (hs.const_mul (c * size (st l0).rho))
  simpa using this

/-- C134 (integration over the coupling): up to the strength of weak coupling the reported grand potential is the one of free particles
plus the integral of the expectation value of the interaction over its strength. -/
theorem C134_integration {L : ℝ} (hL : 0 ≤ L) (hq : beta * (L * c) < 4) (hmu : ∀ l l', (st l).mu = (st l').mu) :
    ((st L).omega - (st 0).omega).re = ∫ l in (0 : ℝ)..L, (wickEnergy U (st l).rho).re := by
  have hw : ∀ l ∈ Set.uIcc 0 L, beta * (|l| * c) < 4 := by
    intro l hl
    rw [Set.uIcc_of_le hL] at hl
    rw [abs_of_nonneg hl.1]
    refine lt_of_le_of_lt ?_ hq
    exact mul_le_mul_of_nonneg_left (mul_le_mul_of_nonneg_right hl.2 hc.1) hb.le
  rw [intervalIntegral.integral_eq_sub_of_hasDerivAt
    (fun l hl => C134_coupling hb hc hU hek st hr hd he (hw l hl) fun l' => hmu l' l)
    (ContinuousOn.intervalIntegrable fun l hl =>
      (wick_continuous hb hc hU hek st hr hd (hw l hl) fun l' => hmu l' l).continuousWithinAt), Complex.sub_re]

end Coupling

end Verif.Compare
