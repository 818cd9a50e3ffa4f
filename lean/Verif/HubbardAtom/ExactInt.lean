import Verif.HubbardAtom.Exact
import Mathlib.Analysis.SpecialFunctions.Integrals.Basic

/-!
# Integrals over the imaginary times of the Hubbard atom
-/

noncomputable section

set_option linter.unusedSectionVars false

namespace Verif.HubbardAtom

open MeasureTheory Complex

theorem piece {f g : ℝ → ℂ} {p q : ℝ} (hpq : p ≤ q) (hg : Continuous g) (h : ∀ x ∈ Set.Ioo p q, f x = g x) :
    IntervalIntegrable f volume p q ∧ ∫ x in p..q, f x = ∫ x in p..q, g x := by
  have hae : ∀ᵐ x ∂volume.restrict (Set.Ioc p q), f x = g x := by
    rw [← restrict_Ioo_eq_restrict_Ioc]
    exact (ae_restrict_iff' measurableSet_Ioo).2 (Filter.Eventually.of_forall h)
  constructor
  · have := hg.intervalIntegrable (μ := volume) p q
    rw [intervalIntegrable_iff_integrableOn_Ioc_of_le hpq] at this ⊢
    exact this.congr (hae.mono fun x hx => hx.symm)
  · rw [intervalIntegral.integral_of_le hpq, intervalIntegral.integral_of_le hpq]
    exact integral_congr_ae hae

theorem split2 {f g1 g2 : ℝ → ℂ} {p q r : ℝ} (hpq : p ≤ q) (hqr : q ≤ r) (c1 : Continuous g1) (c2 : Continuous g2)
    (h1 : ∀ x ∈ Set.Ioo p q, f x = g1 x) (h2 : ∀ x ∈ Set.Ioo q r, f x = g2 x) :
    ∫ x in p..r, f x = (∫ x in p..q, g1 x) + ∫ x in q..r, g2 x := by
  obtain ⟨i1, e1⟩ := piece hpq c1 h1
  obtain ⟨i2, e2⟩ := piece hqr c2 h2
  rw [← intervalIntegral.integral_add_adjacent_intervals i1 i2, e1, e2]

theorem split3 {f g1 g2 g3 : ℝ → ℂ} {p q r s : ℝ} (hpq : p ≤ q) (hqr : q ≤ r) (hrs : r ≤ s) (c1 : Continuous g1)
    (c2 : Continuous g2) (c3 : Continuous g3) (h1 : ∀ x ∈ Set.Ioo p q, f x = g1 x) (h2 : ∀ x ∈ Set.Ioo q r, f x = g2 x)
    (h3 : ∀ x ∈ Set.Ioo r s, f x = g3 x) :
    ∫ x in p..s, f x = (∫ x in p..q, g1 x) + (∫ x in q..r, g2 x) + ∫ x in r..s, g3 x := by
  obtain ⟨i1, e1⟩ := piece hpq c1 h1
  obtain ⟨i2, e2⟩ := piece hqr c2 h2
  obtain ⟨i3, e3⟩ := piece hrs c3 h3
  rw [← intervalIntegral.integral_add_adjacent_intervals (i1.trans i2) i3,
    ← intervalIntegral.integral_add_adjacent_intervals i1 i2, e1, e2, e3]

theorem int_exp {c : ℂ} (hc : c ≠ 0) (k : ℂ) (s t : ℝ) :
    ∫ τ in s..t, k * cexp (c * τ) = k * ((cexp (c * t) - cexp (c * s)) / c) := by
  rw [intervalIntegral.integral_const_mul, integral_exp_mul_complex hc]

theorem lin {n : ℕ} (c x : Fin n → ℂ) (s t : ℝ) :
    ∫ τ in s..t, ∑ i, c i * cexp (x i * τ) = ∑ i, c i * ∫ τ in s..t, cexp (x i * τ) := by
  rw [intervalIntegral.integral_finsetSum]
  · simp only [intervalIntegral.integral_const_mul]
  · intro i _
    exact (by fun_prop : Continuous fun τ : ℝ => c i * cexp (x i * τ)).intervalIntegrable _ _

/-- frequencies, interaction and their exponentials -/
structure Data (beta U : ℝ) (a b : ℂ) : Prop where
  hb : 0 < beta
  ea : cexp (a * beta) = -1
  eb : cexp (b * beta) = -1
  ha1 : a + U / 2 ≠ 0
  ha2 : a - U / 2 ≠ 0
  hb1 : b + U / 2 ≠ 0
  hb2 : b - U / 2 ≠ 0

variable {beta U : ℝ} {a b b' : ℂ}

/-- the inner integral for spins up and down, divided by the phase and multiplied by `Z` -/
def innerUd (beta U : ℝ) (a : ℂ) (τ2 t : ℝ) : ℂ :=
  let x (τ : ℝ) := cexp (τ * (U / 2))
  let K := x beta / x t + x t
  let c1 := U / ((a + U / 2) * (a - U / 2))
  if τ2 < t then c1 * (x beta / x t + cexp (-a * t)) * x τ2 + K / (a + U / 2) * cexp (-a * τ2)
  else c1 * x beta * (x t - cexp (-a * t)) / x τ2 + K / (a - U / 2) * cexp (-a * τ2)

theorem inner_ud (h : Data beta U a b) {t τ2 : ℝ} (ht : 0 < t) (ht' : t < beta) (h2 : 0 < τ2) (h2' : τ2 < beta)
    (hne : τ2 ≠ t) (P : ℂ) :
    ∫ τ1 in (0 : ℝ)..beta, P * cexp (-a * τ1) * g2Tau beta U 0 1 τ1 τ2 t
      = P * innerUd beta U a τ2 t / (2 * (1 + cexp (beta * (U / 2)))) := by
  obtain ⟨u, hu⟩ : ∃ u : ℂ, u = U / 2 := ⟨_, rfl⟩
  have hU : (U : ℂ) = 2 * u := by rw [hu]; ring
  have k1 : -a - u ≠ 0 := by
    intro e; apply h.ha1; rw [← hu]; linear_combination -e
  have k2 : u - a ≠ 0 := by
    intro e; apply h.ha2; rw [← hu]; linear_combination -e
  have k1' := h.ha1
  have k2' := h.ha2
  rw [← hu] at k1' k2'
  obtain ⟨Q, hQ⟩ : ∃ Q, Q = cexp (beta * u) := ⟨_, rfl⟩
  obtain ⟨y, hy⟩ : ∃ y, y = cexp (t * u) := ⟨_, rfl⟩
  obtain ⟨x2, hx2⟩ : ∃ x2, x2 = cexp (τ2 * u) := ⟨_, rfl⟩
  obtain ⟨z, hz⟩ : ∃ z, z = cexp (-a * t) := ⟨_, rfl⟩
  obtain ⟨w2, hw2⟩ : ∃ w2, w2 = cexp (-a * τ2) := ⟨_, rfl⟩
  have nQ : Q ≠ 0 := hQ ▸ exp_ne_zero _
  have ny : y ≠ 0 := hy ▸ exp_ne_zero _
  have nx : x2 ≠ 0 := hx2 ▸ exp_ne_zero _
  have em : ∀ τ : ℝ, cexp ((-a - u) * τ) = cexp (-a * τ) / cexp (τ * u) := fun τ => by
    rw [← exp_sub]; congr 1; ring
  have ep : ∀ τ : ℝ, cexp ((u - a) * τ) = cexp (-a * τ) * cexp (τ * u) := fun τ => by
    rw [← exp_add]; congr 1; ring
  have eβ : cexp (-a * beta) = -1 := by
    rw [neg_mul, exp_neg, h.ea]; norm_num
  have e0 : cexp (-a * (0 : ℝ)) = 1 := by simp
  have e0' : cexp ((0 : ℝ) * u) = 1 := by simp
  rw [innerUd]
  simp only [← hu, ← hQ, ← hy, ← hx2, ← hz, ← hw2]
  obtain ⟨Z, hZ⟩ : ∃ Z, Z = 2 * (1 + Q) := ⟨_, rfl⟩
  rw [← hZ]
  rcases lt_or_gt_of_ne hne with hlt | hlt
  · rw [if_pos hlt]
    rw [split3 (g1 := fun τ => (P * (x2 * (-(Q / y)) / Z)) * cexp ((-a - u) * τ))
      (g2 := fun τ => (P * (x2 * y / Z)) * cexp ((-a - u) * τ))
      (g3 := fun τ => (P * (x2 / y / Z)) * cexp ((u - a) * τ)) h2.le hlt.le ht'.le (by fun_prop) (by fun_prop)
      (by fun_prop)]
    · rw [int_exp k1, int_exp k1, int_exp k2]
      simp only [em, ep, eβ, e0, e0', ← hQ, ← hy, ← hx2, ← hz, ← hw2, hU]
      have k3 : -a - u = -(a + u) := by ring
      have k4 : u - a = -(a - u) := by ring
      rw [k3, k4]
      field_simp
      ring
    · intro τ hτ
      rw [g2_ud beta U hτ.1 h2 ht hτ.2.ne (hτ.2.trans hlt).ne hne]
      simp only [← hu, ← hQ, ← hy, ← hx2, ← hZ, if_pos hlt, if_pos (hτ.2.trans hlt), if_pos hτ.2, em]
      have := exp_ne_zero (τ * u)
      field_simp
    · intro τ hτ
      rw [g2_ud beta U (h2.trans hτ.1) h2 ht hτ.1.ne' hτ.2.ne hne]
      simp only [← hu, ← hQ, ← hy, ← hx2, ← hZ, if_pos hlt, if_pos hτ.2, if_neg hτ.1.not_gt, em]
      have := exp_ne_zero (τ * u)
      field_simp
    · intro τ hτ
      rw [g2_ud beta U (ht.trans hτ.1) h2 ht (hlt.trans hτ.1).ne' hτ.1.ne' hne]
      simp only [← hu, ← hQ, ← hy, ← hx2, ← hZ, if_pos hlt, if_neg hτ.1.not_gt, if_neg (hlt.trans hτ.1).not_gt, ep]
      have := exp_ne_zero (τ * u)
      field_simp
  · rw [if_neg hlt.not_gt]
    rw [split3 (g1 := fun τ => (P * (-(Q * y / x2) / Z)) * cexp ((-a - u) * τ))
      (g2 := fun τ => (P * (-(Q / y) / x2 / Z)) * cexp ((u - a) * τ))
      (g3 := fun τ => (P * (y / x2 / Z)) * cexp ((u - a) * τ)) ht.le hlt.le h2'.le (by fun_prop) (by fun_prop)
      (by fun_prop)]
    · rw [int_exp k1, int_exp k2, int_exp k2]
      simp only [em, ep, eβ, e0, e0', ← hQ, ← hy, ← hx2, ← hz, ← hw2, hU]
      have k3 : -a - u = -(a + u) := by ring
      have k4 : u - a = -(a - u) := by ring
      rw [k3, k4]
      field_simp
      ring
    · intro τ hτ
      rw [g2_ud beta U hτ.1 h2 ht (hτ.2.trans hlt).ne hτ.2.ne hne]
      simp only [← hu, ← hQ, ← hy, ← hx2, ← hZ, if_neg hlt.not_gt, if_pos (hτ.2.trans hlt), if_pos hτ.2, em]
      have := exp_ne_zero (τ * u)
      field_simp
    · intro τ hτ
      rw [g2_ud beta U (ht.trans hτ.1) h2 ht hτ.2.ne hτ.1.ne' hne]
      simp only [← hu, ← hQ, ← hy, ← hx2, ← hZ, if_neg hlt.not_gt, if_pos hτ.2, if_neg hτ.1.not_gt, ep]
      have := exp_ne_zero (τ * u)
      field_simp
    · intro τ hτ
      rw [g2_ud beta U (h2.trans hτ.1) h2 ht hτ.1.ne' (hlt.trans hτ.1).ne' hne]
      simp only [← hu, ← hQ, ← hy, ← hx2, ← hZ, if_neg hlt.not_gt, if_neg hτ.1.not_gt, if_neg (hlt.trans hτ.1).not_gt, ep]
      have := exp_ne_zero (τ * u)
      field_simp

/-- the inner integral for equal spins, divided by the phase and multiplied by `Z` -/
def innerUu (beta U : ℝ) (a : ℂ) (τ2 t : ℝ) : ℂ :=
  let x (τ : ℝ) := cexp (τ * (U / 2))
  if τ2 < t then (x beta / x t * cexp (-a * τ2) - x beta * x τ2 / x t) / (a + U / 2)
    + (x t * cexp (-a * τ2) - x t / x τ2) / (a - U / 2)
  else (x beta / x t * cexp (-a * τ2) + x τ2 / x t) / (a + U / 2)
    + (x t * cexp (-a * τ2) + x beta * x t / x τ2) / (a - U / 2)

theorem inner_uu (h : Data beta U a b) {t τ2 : ℝ} (ht : 0 < t) (ht' : t < beta) (h2 : 0 < τ2) (h2' : τ2 < beta)
    (hne : τ2 ≠ t) (P : ℂ) :
    ∫ τ1 in (0 : ℝ)..beta, P * cexp (-a * τ1) * g2Tau beta U 0 0 τ1 τ2 t
      = P * innerUu beta U a τ2 t / (2 * (1 + cexp (beta * (U / 2)))) := by
  obtain ⟨u, hu⟩ : ∃ u : ℂ, u = U / 2 := ⟨_, rfl⟩
  have k1 : -a - u ≠ 0 := by
    intro e; apply h.ha1; rw [← hu]; linear_combination -e
  have k2 : u - a ≠ 0 := by
    intro e; apply h.ha2; rw [← hu]; linear_combination -e
  have k1' := h.ha1
  have k2' := h.ha2
  rw [← hu] at k1' k2'
  obtain ⟨Q, hQ⟩ : ∃ Q, Q = cexp (beta * u) := ⟨_, rfl⟩
  obtain ⟨y, hy⟩ : ∃ y, y = cexp (t * u) := ⟨_, rfl⟩
  obtain ⟨x2, hx2⟩ : ∃ x2, x2 = cexp (τ2 * u) := ⟨_, rfl⟩
  obtain ⟨w2, hw2⟩ : ∃ w2, w2 = cexp (-a * τ2) := ⟨_, rfl⟩
  have nQ : Q ≠ 0 := hQ ▸ exp_ne_zero _
  have ny : y ≠ 0 := hy ▸ exp_ne_zero _
  have nx : x2 ≠ 0 := hx2 ▸ exp_ne_zero _
  have em : ∀ τ : ℝ, cexp ((-a - u) * τ) = cexp (-a * τ) / cexp (τ * u) := fun τ => by
    rw [← exp_sub]; congr 1; ring
  have ep : ∀ τ : ℝ, cexp ((u - a) * τ) = cexp (-a * τ) * cexp (τ * u) := fun τ => by
    rw [← exp_add]; congr 1; ring
  have eβ : cexp (-a * beta) = -1 := by
    rw [neg_mul, exp_neg, h.ea]; norm_num
  have e0 : cexp (-a * (0 : ℝ)) = 1 := by simp
  have e0' : cexp ((0 : ℝ) * u) = 1 := by simp
  rw [innerUu]
  simp only [← hu, ← hQ, ← hy, ← hx2, ← hw2]
  obtain ⟨Z, hZ⟩ : ∃ Z, Z = 2 * (1 + Q) := ⟨_, rfl⟩
  rw [← hZ]
  have k3 : -a - u = -(a + u) := by ring
  have k4 : u - a = -(a - u) := by ring
  have two : ∀ p q r : ℝ, ∀ k l : ℂ, ∫ τ in p..q, (k * cexp ((-a - u) * τ) + l * cexp ((u - a) * τ))
      = k * ((cexp ((-a - u) * q) - cexp ((-a - u) * p)) / (-a - u))
        + l * ((cexp ((u - a) * q) - cexp ((u - a) * p)) / (u - a)) := by
    intro p q r k l
    rw [intervalIntegral.integral_add, int_exp k1, int_exp k2]
    · exact (by fun_prop : Continuous fun τ : ℝ => k * cexp ((-a - u) * τ)).intervalIntegrable _ _
    · exact (by fun_prop : Continuous fun τ : ℝ => l * cexp ((u - a) * τ)).intervalIntegrable _ _
  rcases lt_or_gt_of_ne hne with hlt | hlt
  · rw [if_pos hlt]
    rw [split3 (g1 := fun τ => -(P * (Q * x2 / y / Z)) * cexp ((-a - u) * τ) + -(P * (y / x2 / Z)) * cexp ((u - a) * τ))
      (g2 := fun τ => 0) (g3 := fun τ => 0) h2.le hlt.le ht'.le (by fun_prop) (by fun_prop)
      (by fun_prop)]
    · rw [two 0 τ2 0]
      simp only [intervalIntegral.integral_zero, add_zero]
      simp only [em, ep, e0, e0', ← hx2, ← hw2]
      rw [k3, k4]
      field_simp
    · intro τ hτ
      rw [g2_uu beta U hτ.1 h2 ht hτ.2.ne (hτ.2.trans hlt).ne hne]
      simp only [← hu, ← hQ, ← hy, ← hx2, ← hZ, if_neg fun h : τ2 < τ ∧ t < τ2 => hlt.not_gt h.2, if_pos (And.intro hτ.2 hlt), em, ep]
      have := exp_ne_zero (τ * u)
      field_simp
      ring
    · intro τ hτ
      rw [g2_uu beta U (h2.trans hτ.1) h2 ht hτ.1.ne' hτ.2.ne hne]
      rw [if_neg fun h : τ2 < τ ∧ t < τ2 => hlt.not_gt h.2, if_neg fun h : τ < τ2 ∧ τ2 < t => hτ.1.not_gt h.1]
      simp
    · intro τ hτ
      rw [g2_uu beta U (ht.trans hτ.1) h2 ht (hlt.trans hτ.1).ne' hτ.1.ne' hne]
      rw [if_neg fun h : τ2 < τ ∧ t < τ2 => hlt.not_gt h.2,
        if_neg fun h : τ < τ2 ∧ τ2 < t => (hlt.trans hτ.1).not_gt h.1]
      simp
  · rw [if_neg hlt.not_gt]
    rw [split3 (g1 := fun τ => 0) (g2 := fun τ => 0)
      (g3 := fun τ => (P * (Q * x2 / y / Z)) * cexp ((-a - u) * τ) + (P * (y / x2 / Z)) * cexp ((u - a) * τ))
      ht.le hlt.le h2'.le (by fun_prop) (by fun_prop) (by fun_prop)]
    · rw [two τ2 beta 0]
      simp only [intervalIntegral.integral_zero, add_zero, zero_add]
      simp only [em, ep, eβ, ← hx2, ← hw2, ← hQ]
      rw [k3, k4]
      field_simp
      ring
    · intro τ hτ
      rw [g2_uu beta U hτ.1 h2 ht (hτ.2.trans hlt).ne hτ.2.ne hne]
      rw [if_neg fun h : τ2 < τ ∧ t < τ2 => (hτ.2.trans hlt).not_gt h.1, if_neg fun h : τ < τ2 ∧ τ2 < t => hlt.not_gt h.2]
      simp
    · intro τ hτ
      rw [g2_uu beta U (ht.trans hτ.1) h2 ht hτ.2.ne hτ.1.ne' hne]
      rw [if_neg fun h : τ2 < τ ∧ t < τ2 => hτ.2.not_gt h.1, if_neg fun h : τ < τ2 ∧ τ2 < t => hlt.not_gt h.2]
      simp
    · intro τ hτ
      rw [g2_uu beta U (h2.trans hτ.1) h2 ht hτ.1.ne' (hlt.trans hτ.1).ne' hne]
      simp only [← hu, ← hQ, ← hy, ← hx2, ← hZ, if_pos (And.intro hτ.1 hlt), em, ep]
      have := exp_ne_zero (τ * u)
      field_simp

/-- `∫_0^t exp(c τ)` -/
def Phi (c : ℂ) (t : ℝ) : ℂ := ∫ τ in (0 : ℝ)..t, cexp (c * τ)

theorem Phi_sub (c : ℂ) (s t : ℝ) : ∫ τ in s..t, cexp (c * τ) = Phi c t - Phi c s := by
  have hi : ∀ p q : ℝ, IntervalIntegrable (fun τ : ℝ => cexp (c * τ)) volume p q := fun p q =>
    (by fun_prop : Continuous fun τ : ℝ => cexp (c * τ)).intervalIntegrable _ _
  rw [Phi, Phi, intervalIntegral.integral_interval_sub_left (hi _ _) (hi _ _)]

theorem int_two {c : ℂ} (hc : c ≠ 0) (d k l : ℂ) (s t : ℝ) :
    ∫ τ in s..t, (k * cexp (c * τ) + l * cexp (d * τ))
      = k * ((cexp (c * t) - cexp (c * s)) / c) + l * (Phi d t - Phi d s) := by
  rw [intervalIntegral.integral_add, int_exp hc, intervalIntegral.integral_const_mul, Phi_sub]
  · exact (by fun_prop : Continuous fun τ : ℝ => k * cexp (c * τ)).intervalIntegrable _ _
  · exact (by fun_prop : Continuous fun τ : ℝ => l * cexp (d * τ)).intervalIntegrable _ _

theorem int_three {c c' : ℂ} (hc : c ≠ 0) (hc' : c' ≠ 0) (d k k' l : ℂ) (s t : ℝ) :
    ∫ τ in s..t, (k * cexp (c * τ) + k' * cexp (c' * τ) + l * cexp (d * τ))
      = k * ((cexp (c * t) - cexp (c * s)) / c) + k' * ((cexp (c' * t) - cexp (c' * s)) / c') + l * (Phi d t - Phi d s) := by
  rw [intervalIntegral.integral_add, intervalIntegral.integral_add, int_exp hc, int_exp hc',
    intervalIntegral.integral_const_mul, Phi_sub]
  · exact (by fun_prop : Continuous fun τ : ℝ => k * cexp (c * τ)).intervalIntegrable _ _
  · exact (by fun_prop : Continuous fun τ : ℝ => k' * cexp (c' * τ)).intervalIntegrable _ _
  · exact (by fun_prop : Continuous fun τ : ℝ => k * cexp (c * τ) + k' * cexp (c' * τ)).intervalIntegrable _ _
  · exact (by fun_prop : Continuous fun τ : ℝ => l * cexp (d * τ)).intervalIntegrable _ _

/-- the integral over the first two times for spins up and down, divided by the phase and multiplied by `Z` -/
def midUd (beta U : ℝ) (a b : ℂ) (t : ℝ) : ℂ :=
  let x (τ : ℝ) := cexp (τ * (U / 2))
  let K := x beta / x t + x t
  let c1 := U / ((a + U / 2) * (a - U / 2))
  c1 * (x beta / x t + cexp (-a * t)) * (cexp (b * t) * x t - 1) / (b + U / 2)
    - c1 * (x t - cexp (-a * t)) * (1 + x beta * cexp (b * t) / x t) / (b - U / 2)
    + K / (a + U / 2) * Phi (b - a) t + K / (a - U / 2) * (Phi (b - a) beta - Phi (b - a) t)

theorem mid_ud (h : Data beta U a b) {t : ℝ} (ht : 0 < t) (ht' : t < beta) (b' : ℂ) :
    ∫ τ2 in (0 : ℝ)..beta, ∫ τ1 in (0 : ℝ)..beta, cexp (-a * τ1 + b * τ2 - b' * t) * g2Tau beta U 0 1 τ1 τ2 t
      = cexp (-b' * t) * midUd beta U a b t / (2 * (1 + cexp (beta * (U / 2)))) := by
  have hin : ∀ τ2 : ℝ, 0 < τ2 → τ2 < beta → τ2 ≠ t →
      ∫ τ1 in (0 : ℝ)..beta, cexp (-a * τ1 + b * τ2 - b' * t) * g2Tau beta U 0 1 τ1 τ2 t
      = cexp (b * τ2 - b' * t) * innerUd beta U a τ2 t / (2 * (1 + cexp (beta * (U / 2)))) := by
    intro τ2 h1 h2 hne
    rw [← inner_ud h ht ht' h1 h2 hne]
    refine intervalIntegral.integral_congr fun τ1 _ => ?_
    rw [← exp_add]
    congr 2
    ring
  obtain ⟨u, hu⟩ : ∃ u : ℂ, u = U / 2 := ⟨_, rfl⟩
  have hU : (U : ℂ) = 2 * u := by rw [hu]; ring
  have k1 := h.ha1
  have k2 := h.ha2
  have k3 := h.hb1
  have k4 := h.hb2
  rw [← hu] at k1 k2 k3 k4
  obtain ⟨Q, hQ⟩ : ∃ Q, Q = cexp (beta * u) := ⟨_, rfl⟩
  obtain ⟨y, hy⟩ : ∃ y, y = cexp (t * u) := ⟨_, rfl⟩
  obtain ⟨z, hz⟩ : ∃ z, z = cexp (-a * t) := ⟨_, rfl⟩
  obtain ⟨v, hv⟩ : ∃ v, v = cexp (b * t) := ⟨_, rfl⟩
  obtain ⟨P, hP⟩ : ∃ P, P = cexp (-b' * t) := ⟨_, rfl⟩
  have nQ : Q ≠ 0 := hQ ▸ exp_ne_zero _
  have ny : y ≠ 0 := hy ▸ exp_ne_zero _
  have em : ∀ τ : ℝ, cexp ((b - u) * τ) = cexp (b * τ) / cexp (τ * u) := fun τ => by
    rw [← exp_sub]; congr 1; ring
  have ep : ∀ τ : ℝ, cexp ((b + u) * τ) = cexp (b * τ) * cexp (τ * u) := fun τ => by
    rw [← exp_add]; congr 1; ring
  have ew : ∀ τ : ℝ, cexp ((b - a) * τ) = cexp (b * τ) * cexp (-a * τ) := fun τ => by
    rw [← exp_add]; congr 1; ring
  have e0 : cexp (b * (0 : ℝ)) = 1 := by simp
  have e0' : cexp ((0 : ℝ) * u) = 1 := by simp
  have eP : ∀ τ : ℝ, cexp (b * τ - b' * t) = cexp (b * τ) * P := fun τ => by
    rw [hP, ← exp_add]; congr 1; ring
  have p0 : Phi (b - a) 0 = 0 := by simp [Phi]
  obtain ⟨Z, hZ⟩ : ∃ Z, Z = 2 * (1 + Q) := ⟨_, rfl⟩
  rw [midUd]
  simp only [← hu, ← hQ, ← hy, ← hz, ← hv, ← hP, ← hZ] at hin ⊢
  rw [split2 (g1 := fun τ => (P * (U / ((a + u) * (a - u)) * (Q / y + z)) / Z) * cexp ((b + u) * τ)
        + (P * ((Q / y + y) / (a + u)) / Z) * cexp ((b - a) * τ))
    (g2 := fun τ => (P * (U / ((a + u) * (a - u)) * Q * (y - z)) / Z) * cexp ((b - u) * τ)
        + (P * ((Q / y + y) / (a - u)) / Z) * cexp ((b - a) * τ)) ht.le ht'.le (by fun_prop) (by fun_prop)]
  · rw [int_two k3, int_two k4, p0]
    simp only [em, ep, e0, e0', h.eb, ← hQ, ← hy, ← hv]
    field_simp
    ring
  · intro τ hτ
    rw [hin τ hτ.1 (hτ.2.trans ht') hτ.2.ne, eP, innerUd]
    simp only [← hu, ← hQ, ← hy, ← hz, if_pos hτ.2, ep, ew]
    field_simp
  · intro τ hτ
    rw [hin τ (ht.trans hτ.1) hτ.2 hτ.1.ne', eP, innerUd]
    have := exp_ne_zero (τ * u)
    simp only [← hu, ← hQ, ← hy, ← hz, if_neg hτ.1.not_gt, em, ew]
    field_simp

/-- the integral over the first two times for equal spins, divided by the phase and multiplied by `Z` -/
def midUu (beta U : ℝ) (a b : ℂ) (t : ℝ) : ℂ :=
  let x (τ : ℝ) := cexp (τ * (U / 2))
  (x beta / x t / (a + U / 2) + x t / (a - U / 2)) * Phi (b - a) beta
    - (1 + x beta) * cexp (b * t) * (1 / ((a + U / 2) * (b + U / 2)) + 1 / ((a - U / 2) * (b - U / 2)))

theorem mid_uu (h : Data beta U a b) {t : ℝ} (ht : 0 < t) (ht' : t < beta) (b' : ℂ) :
    ∫ τ2 in (0 : ℝ)..beta, ∫ τ1 in (0 : ℝ)..beta, cexp (-a * τ1 + b * τ2 - b' * t) * g2Tau beta U 0 0 τ1 τ2 t
      = cexp (-b' * t) * midUu beta U a b t / (2 * (1 + cexp (beta * (U / 2)))) := by
  have hin : ∀ τ2 : ℝ, 0 < τ2 → τ2 < beta → τ2 ≠ t →
      ∫ τ1 in (0 : ℝ)..beta, cexp (-a * τ1 + b * τ2 - b' * t) * g2Tau beta U 0 0 τ1 τ2 t
      = cexp (b * τ2 - b' * t) * innerUu beta U a τ2 t / (2 * (1 + cexp (beta * (U / 2)))) := by
    intro τ2 h1 h2 hne
    rw [← inner_uu h ht ht' h1 h2 hne]
    refine intervalIntegral.integral_congr fun τ1 _ => ?_
    rw [← exp_add]
    congr 2
    ring
  obtain ⟨u, hu⟩ : ∃ u : ℂ, u = U / 2 := ⟨_, rfl⟩
  have k1 := h.ha1
  have k2 := h.ha2
  have k3 := h.hb1
  have k4 := h.hb2
  rw [← hu] at k1 k2 k3 k4
  obtain ⟨Q, hQ⟩ : ∃ Q, Q = cexp (beta * u) := ⟨_, rfl⟩
  obtain ⟨y, hy⟩ : ∃ y, y = cexp (t * u) := ⟨_, rfl⟩
  obtain ⟨v, hv⟩ : ∃ v, v = cexp (b * t) := ⟨_, rfl⟩
  obtain ⟨P, hP⟩ : ∃ P, P = cexp (-b' * t) := ⟨_, rfl⟩
  have nQ : Q ≠ 0 := hQ ▸ exp_ne_zero _
  have ny : y ≠ 0 := hy ▸ exp_ne_zero _
  have em : ∀ τ : ℝ, cexp ((b - u) * τ) = cexp (b * τ) / cexp (τ * u) := fun τ => by
    rw [← exp_sub]; congr 1; ring
  have ep : ∀ τ : ℝ, cexp ((b + u) * τ) = cexp (b * τ) * cexp (τ * u) := fun τ => by
    rw [← exp_add]; congr 1; ring
  have ew : ∀ τ : ℝ, cexp ((b - a) * τ) = cexp (b * τ) * cexp (-a * τ) := fun τ => by
    rw [← exp_add]; congr 1; ring
  have e0 : cexp (b * (0 : ℝ)) = 1 := by simp
  have e0' : cexp ((0 : ℝ) * u) = 1 := by simp
  have eP : ∀ τ : ℝ, cexp (b * τ - b' * t) = cexp (b * τ) * P := fun τ => by
    rw [hP, ← exp_add]; congr 1; ring
  have p0 : Phi (b - a) 0 = 0 := by simp [Phi]
  obtain ⟨Z, hZ⟩ : ∃ Z, Z = 2 * (1 + Q) := ⟨_, rfl⟩
  rw [midUu]
  simp only [← hu, ← hQ, ← hy, ← hv, ← hP, ← hZ] at hin ⊢
  rw [split2 (g1 := fun τ => (-(P * (Q / y / (a + u))) / Z) * cexp ((b + u) * τ)
        + (-(P * (y / (a - u))) / Z) * cexp ((b - u) * τ)
        + (P * (Q / y / (a + u) + y / (a - u)) / Z) * cexp ((b - a) * τ))
    (g2 := fun τ => (P * (1 / y / (a + u)) / Z) * cexp ((b + u) * τ)
        + (P * (Q * y / (a - u)) / Z) * cexp ((b - u) * τ)
        + (P * (Q / y / (a + u) + y / (a - u)) / Z) * cexp ((b - a) * τ)) ht.le ht'.le (by fun_prop) (by fun_prop)]
  · rw [int_three k3 k4, int_three k3 k4, p0]
    simp only [em, ep, e0, e0', h.eb, ← hQ, ← hy, ← hv]
    field_simp
    ring
  · intro τ hτ
    rw [hin τ hτ.1 (hτ.2.trans ht') hτ.2.ne, eP, innerUu]
    have := exp_ne_zero (τ * u)
    simp only [← hu, ← hQ, ← hy, if_pos hτ.2, ep, em, ew]
    field_simp
    ring
  · intro τ hτ
    rw [hin τ (ht.trans hτ.1) hτ.2 hτ.1.ne', eP, innerUu]
    have := exp_ne_zero (τ * u)
    simp only [← hu, ← hQ, ← hy, if_neg hτ.1.not_gt, em, ep, ew]
    field_simp
    ring

end Verif.HubbardAtom
