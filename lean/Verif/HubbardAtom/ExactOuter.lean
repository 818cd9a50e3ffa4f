import Verif.HubbardAtom.ExactInt

/-!
# The last integral over imaginary time of the Hubbard atom
-/

noncomputable section

set_option linter.unusedSectionVars false

namespace Verif.HubbardAtom

open MeasureTheory Complex

variable {beta U : ℝ} {a b b' : ℂ}

theorem Phi_val {c : ℂ} (hc : c ≠ 0) (t : ℝ) : Phi c t = (cexp (c * t) - 1) / c := by
  rw [Phi, integral_exp_mul_complex hc]
  simp

theorem Phi_zero (t : ℝ) : Phi 0 t = t := by
  simp [Phi]

theorem int_t_exp {x : ℂ} (hx : x ≠ 0) (t : ℝ) :
    ∫ τ in (0 : ℝ)..t, (τ : ℂ) * cexp (x * τ) = t * cexp (x * t) / x - (cexp (x * t) - 1) / x ^ 2 := by
  have hd : ∀ s : ℝ, HasDerivAt (fun τ : ℝ => (τ : ℂ) * cexp (x * τ) / x - cexp (x * τ) / x ^ 2)
      ((s : ℂ) * cexp (x * s)) s := by
    intro s
    have h0 : HasDerivAt (fun τ : ℝ => (τ : ℂ)) 1 s := ofRealCLM.hasDerivAt
    have h1 : HasDerivAt (fun τ : ℝ => cexp (x * τ)) (cexp (x * s) * (x * 1)) s := (h0.const_mul x).cexp
    have := ((h0.mul h1).div_const x).sub (h1.div_const (x ^ 2))
    refine this.congr_deriv ?_
    field_simp
    ring
  rw [intervalIntegral.integral_eq_sub_of_hasDerivAt (fun s _ => hd s)
    ((by fun_prop : Continuous fun τ : ℝ => (τ : ℂ) * cexp (x * τ)).intervalIntegrable _ _)]
  simp
  ring

theorem one_add_exp_ne (beta U : ℝ) : 1 + cexp (beta * (U / 2)) ≠ 0 := by
  have : cexp (beta * (U / 2)) = ((Real.exp (beta * (U / 2)) : ℝ) : ℂ) := by push_cast; rfl
  rw [this, ← ofReal_one, ← ofReal_add, Ne, ofReal_eq_zero]
  positivity

/-- the triple integral for equal spins -/
theorem out_uu (h : Data beta U a b) (eb' : cexp (b' * beta) = -1) (h1 : b' + U / 2 ≠ 0) (h2 : b' - U / 2 ≠ 0) :
    ∫ t in (0 : ℝ)..beta, ∫ τ2 in (0 : ℝ)..beta, ∫ τ1 in (0 : ℝ)..beta,
        cexp (-a * τ1 + b * τ2 - b' * t) * g2Tau beta U 0 0 τ1 τ2 t
      = 1 / 2 * (Phi (b - a) beta * (1 / ((a + U / 2) * (b' + U / 2)) + 1 / ((a - U / 2) * (b' - U / 2)))
          - Phi (b - b') beta * (1 / ((a + U / 2) * (b + U / 2)) + 1 / ((a - U / 2) * (b - U / 2)))) := by
  obtain ⟨u, hu⟩ : ∃ u : ℂ, u = U / 2 := ⟨_, rfl⟩
  have k1 := h.ha1
  have k2 := h.ha2
  have k3 := h.hb1
  have k4 := h.hb2
  have k0 := one_add_exp_ne beta U
  rw [← hu] at k0 k1 k2 k3 k4 h1 h2
  obtain ⟨Q, hQ⟩ : ∃ Q, Q = cexp (beta * u) := ⟨_, rfl⟩
  have nQ : Q ≠ 0 := hQ ▸ exp_ne_zero _
  rw [← hQ] at k0
  obtain ⟨F, hF⟩ : ∃ F, F = Phi (b - a) beta := ⟨_, rfl⟩
  have n1 : u - b' ≠ 0 := fun e => h2 (by linear_combination -e)
  have n2 : -u - b' ≠ 0 := fun e => h1 (by linear_combination -e)
  have hm : ∀ t ∈ Set.Ioo (0 : ℝ) beta, ∫ τ2 in (0 : ℝ)..beta, ∫ τ1 in (0 : ℝ)..beta,
      cexp (-a * τ1 + b * τ2 - b' * t) * g2Tau beta U 0 0 τ1 τ2 t
      = ∑ i, (![Q / (a + u) * F / (2 * (1 + Q)), 1 / (a - u) * F / (2 * (1 + Q)),
          -(1 / 2) * (1 / ((a + u) * (b + u)) + 1 / ((a - u) * (b - u)))] : Fin 3 → ℂ) i
        * cexp ((![-u - b', u - b', b - b'] : Fin 3 → ℂ) i * t) := by
    intro t ht
    rw [mid_uu h ht.1 ht.2, midUu]
    simp only [← hu, ← hQ, ← hF, Fin.sum_univ_three]
    have e1 : cexp ((-u - b') * t) = cexp (-b' * t) / cexp (t * u) := by
      rw [← exp_sub]; congr 1; ring
    have e2 : cexp ((u - b') * t) = cexp (-b' * t) * cexp (t * u) := by
      rw [← exp_add]; congr 1; ring
    have e3 : cexp ((b - b') * t) = cexp (-b' * t) * cexp (b * t) := by
      rw [← exp_add]; congr 1; ring
    simp only [Matrix.cons_val_zero, Matrix.cons_val_one, Matrix.cons_val, e1, e2, e3]
    have := exp_ne_zero (t * u)
    field_simp
    ring
  rw [(piece h.hb.le (by fun_prop) hm).2, lin]
  simp only [Fin.sum_univ_three, Matrix.cons_val_zero, Matrix.cons_val_one, Matrix.cons_val]
  change _ * Phi (-u - b') beta + _ * Phi (u - b') beta + _ * Phi (b - b') beta = _
  obtain ⟨G, hG⟩ : ∃ G, G = Phi (b - b') beta := ⟨_, rfl⟩
  have e1 : cexp ((-u - b') * beta) = -1 / Q := by
    rw [hQ, show (-u - b') * (beta : ℂ) = -(b' * beta) - beta * u by ring, exp_sub, exp_neg, eb']
    norm_num
  have e2 : cexp ((u - b') * beta) = -Q := by
    rw [hQ, show (u - b') * (beta : ℂ) = beta * u - b' * beta by ring, exp_sub, eb', div_neg, div_one]
  rw [Phi_val n1, Phi_val n2, e1, e2]
  simp only [← hu, ← hF, ← hG]
  have m1 : u - b' = -(b' - u) := by ring
  have m2 : -u - b' = -(b' + u) := by ring
  rw [m1, m2]
  field_simp
  ring

/-- the triple integral for opposite spins at a nonzero bosonic frequency -/
theorem out_ud_ne (h : Data beta U a b) (hw : b - a ≠ 0) (eb' : cexp (b' * beta) = -1) (h1 : b' + U / 2 ≠ 0)
    (h2 : b' - U / 2 ≠ 0) (h3 : b' - (b - a) + U / 2 ≠ 0) (h4 : b' - (b - a) - U / 2 ≠ 0) :
    ∫ t in (0 : ℝ)..beta, ∫ τ2 in (0 : ℝ)..beta, ∫ τ1 in (0 : ℝ)..beta,
        cexp (-a * τ1 + b * τ2 - b' * t) * g2Tau beta U 0 1 τ1 τ2 t
      = U / ((a + U / 2) * (a - U / 2)) / 2 *
        ((1 / (b + U / 2) - 1 / (b - U / 2)) * (cexp (beta * (U / 2)) * Phi (b - b') beta - Phi (-a - b') beta)
            / (1 + cexp (beta * (U / 2)))
          + (1 / (b + U / 2) - 1 / (b - a)) / (b' - (b - a) - U / 2)
          + (1 / (b - U / 2) - 1 / (b - a)) / (b' - (b - a) + U / 2)
          + (1 / (b - a) - 1 / (b - U / 2)) / (b' - U / 2) + (1 / (b - a) - 1 / (b + U / 2)) / (b' + U / 2)) := by
  obtain ⟨u, hu⟩ : ∃ u : ℂ, u = U / 2 := ⟨_, rfl⟩
  have hU : (U : ℂ) = 2 * u := by rw [hu]; ring
  have k1 := h.ha1
  have k2 := h.ha2
  have k3 := h.hb1
  have k4 := h.hb2
  have k0 := one_add_exp_ne beta U
  rw [← hu] at k0 k1 k2 k3 k4 h1 h2 h3 h4
  obtain ⟨Q, hQ⟩ : ∃ Q, Q = cexp (beta * u) := ⟨_, rfl⟩
  have nQ : Q ≠ 0 := hQ ▸ exp_ne_zero _
  rw [← hQ] at k0
  obtain ⟨w, hw'⟩ : ∃ w, w = b - a := ⟨_, rfl⟩
  have ewb : cexp (w * beta) = 1 := by
    rw [hw', sub_mul, exp_sub, h.ea, h.eb]; norm_num
  rw [← hw'] at hw h3 h4
  have n1 : u - b' ≠ 0 := fun e => h2 (by linear_combination -e)
  have n2 : -u - b' ≠ 0 := fun e => h1 (by linear_combination -e)
  have n3 : u + w - b' ≠ 0 := fun e => h4 (by linear_combination -e)
  have n4 : -u + w - b' ≠ 0 := fun e => h3 (by linear_combination -e)
  have hm : ∀ t ∈ Set.Ioo (0 : ℝ) beta, ∫ τ2 in (0 : ℝ)..beta, ∫ τ1 in (0 : ℝ)..beta,
      cexp (-a * τ1 + b * τ2 - b' * t) * g2Tau beta U 0 1 τ1 τ2 t
      = ∑ i, (![U / ((a + u) * (a - u)) / (2 * (1 + Q)) * (Q * (1 / (b + u) - 1 / (b - u))),
          U / ((a + u) * (a - u)) / (2 * (1 + Q)) * (1 / (b - u) - 1 / (b + u)),
          U / ((a + u) * (a - u)) / (2 * (1 + Q)) * (1 / (b + u) - 1 / w),
          U / ((a + u) * (a - u)) / (2 * (1 + Q)) * (Q * (1 / (b - u) - 1 / w)),
          U / ((a + u) * (a - u)) / (2 * (1 + Q)) * (1 / w - 1 / (b - u)),
          U / ((a + u) * (a - u)) / (2 * (1 + Q)) * (Q * (1 / w - 1 / (b + u)))] : Fin 6 → ℂ) i
        * cexp ((![b - b', -a - b', u + w - b', -u + w - b', u - b', -u - b'] : Fin 6 → ℂ) i * t) := by
    intro t ht
    rw [mid_ud h ht.1 ht.2, midUd, ← hw', Phi_val hw, Phi_val hw, ewb]
    simp only [← hu, ← hQ, Fin.sum_univ_six]
    have e0 : cexp (w * t) = cexp (b * t) * cexp (-a * t) := by
      rw [hw', ← exp_add]; congr 1; ring
    have e1 : cexp ((-u - b') * t) = cexp (-b' * t) / cexp (t * u) := by
      rw [← exp_sub]; congr 1; ring
    have e2 : cexp ((u - b') * t) = cexp (-b' * t) * cexp (t * u) := by
      rw [← exp_add]; congr 1; ring
    have e3 : cexp ((b - b') * t) = cexp (-b' * t) * cexp (b * t) := by
      rw [← exp_add]; congr 1; ring
    have e4 : cexp ((-a - b') * t) = cexp (-b' * t) * cexp (-a * t) := by
      rw [← exp_add]; congr 1; ring
    have e5 : cexp ((-u + w - b') * t) = cexp (-b' * t) * cexp (w * t) / cexp (t * u) := by
      rw [← exp_add, ← exp_sub]; congr 1; ring
    have e6 : cexp ((u + w - b') * t) = cexp (-b' * t) * cexp (w * t) * cexp (t * u) := by
      rw [← exp_add, ← exp_add]; congr 1; ring
    simp only [Matrix.cons_val_zero, Matrix.cons_val_one, Matrix.cons_val, e1, e2, e3, e4, e5, e6, e0]
    have := exp_ne_zero (t * u)
    rw [hU]
    field_simp
    ring
  rw [(piece h.hb.le (by fun_prop) hm).2, lin]
  simp only [Fin.sum_univ_six, Matrix.cons_val_zero, Matrix.cons_val_one, Matrix.cons_val]
  change _ * Phi (b - b') beta + _ * Phi (-a - b') beta + _ * Phi (u + w - b') beta + _ * Phi (-u + w - b') beta
    + _ * Phi (u - b') beta + _ * Phi (-u - b') beta = _
  obtain ⟨G, hG⟩ : ∃ G, G = Phi (b - b') beta := ⟨_, rfl⟩
  obtain ⟨G', hG'⟩ : ∃ G', G' = Phi (-a - b') beta := ⟨_, rfl⟩
  have e1 : cexp ((-u - b') * beta) = -1 / Q := by
    rw [hQ, show (-u - b') * (beta : ℂ) = -(b' * beta) - beta * u by ring, exp_sub, exp_neg, eb']
    norm_num
  have e2 : cexp ((u - b') * beta) = -Q := by
    rw [hQ, show (u - b') * (beta : ℂ) = beta * u - b' * beta by ring, exp_sub, eb', div_neg, div_one]
  have e3 : cexp ((-u + w - b') * beta) = -1 / Q := by
    rw [show (-u + w - b') * (beta : ℂ) = (-u - b') * beta + w * beta by ring, exp_add, e1, ewb, mul_one]
  have e4 : cexp ((u + w - b') * beta) = -Q := by
    rw [show (u + w - b') * (beta : ℂ) = (u - b') * beta + w * beta by ring, exp_add, e2, ewb, mul_one]
  rw [Phi_val n1, Phi_val n2, Phi_val n3, Phi_val n4, e1, e2, e3, e4]
  simp only [← hu, ← hG, ← hG', ← hQ, ← hw']
  have m1 : u - b' = -(b' - u) := by ring
  have m2 : -u - b' = -(b' + u) := by ring
  have m3 : u + w - b' = -(b' - w - u) := by ring
  have m4 : -u + w - b' = -(b' - w + u) := by ring
  rw [m1, m2, m3, m4]
  obtain ⟨p, hp⟩ : ∃ p, p = 1 / (b + u) := ⟨_, rfl⟩
  obtain ⟨p', hp'⟩ : ∃ p', p' = 1 / (b - u) := ⟨_, rfl⟩
  obtain ⟨r, hr⟩ : ∃ r, r = 1 / w := ⟨_, rfl⟩
  rw [← hp, ← hp', ← hr]
  field_simp
  ring

/-- the triple integral for opposite spins at bosonic frequency zero -/
theorem out_ud_zero (h : Data beta U a a) (eb' : cexp (b' * beta) = -1) (h1 : b' + U / 2 ≠ 0)
    (h2 : b' - U / 2 ≠ 0) :
    ∫ t in (0 : ℝ)..beta, ∫ τ2 in (0 : ℝ)..beta, ∫ τ1 in (0 : ℝ)..beta,
        cexp (-a * τ1 + a * τ2 - b' * t) * g2Tau beta U 0 1 τ1 τ2 t
      = U / ((a + U / 2) * (a - U / 2)) / 2 *
        ((1 / (a + U / 2) - 1 / (a - U / 2)) * (cexp (beta * (U / 2)) * Phi (a - b') beta - Phi (-a - b') beta)
            / (1 + cexp (beta * (U / 2)))
          + (1 / (a + U / 2) - 1 / (a - U / 2)) / (b' - U / 2)
          + (1 / (a - U / 2) - 1 / (a + U / 2)) / (b' + U / 2)
          - 1 / (b' - U / 2) ^ 2 - 1 / (b' + U / 2) ^ 2
          - beta * (cexp (beta * (U / 2)) / (b' - U / 2) + 1 / (b' + U / 2)) / (1 + cexp (beta * (U / 2))))
        + beta / (a - U / 2) / 2 * (1 / (b' - U / 2) + 1 / (b' + U / 2)) := by
  obtain ⟨u, hu⟩ : ∃ u : ℂ, u = U / 2 := ⟨_, rfl⟩
  have hU : (U : ℂ) = 2 * u := by rw [hu]; ring
  have k1 := h.ha1
  have k2 := h.ha2
  have k0 := one_add_exp_ne beta U
  rw [← hu] at k0 k1 k2 h1 h2
  obtain ⟨Q, hQ⟩ : ∃ Q, Q = cexp (beta * u) := ⟨_, rfl⟩
  have nQ : Q ≠ 0 := hQ ▸ exp_ne_zero _
  rw [← hQ] at k0
  have n1 : u - b' ≠ 0 := fun e => h2 (by linear_combination -e)
  have n2 : -u - b' ≠ 0 := fun e => h1 (by linear_combination -e)
  obtain ⟨c1, hc1⟩ : ∃ c1, c1 = U / ((a + u) * (a - u)) / (2 * (1 + Q)) := ⟨_, rfl⟩
  have hm : ∀ t ∈ Set.Ioo (0 : ℝ) beta, ∫ τ2 in (0 : ℝ)..beta, ∫ τ1 in (0 : ℝ)..beta,
      cexp (-a * τ1 + a * τ2 - b' * t) * g2Tau beta U 0 1 τ1 τ2 t
      = (∑ i, (![c1 * (Q * (1 / (a + u) - 1 / (a - u))), c1 * (1 / (a - u) - 1 / (a + u)),
          c1 * (1 / (a + u) - 1 / (a - u)) + beta / (a - u) / (2 * (1 + Q)),
          c1 * (Q * (1 / (a - u) - 1 / (a + u))) + beta * Q / (a - u) / (2 * (1 + Q))] : Fin 4 → ℂ) i
        * cexp ((![a - b', -a - b', u - b', -u - b'] : Fin 4 → ℂ) i * t))
        + (-c1 * ((t : ℂ) * cexp ((u - b') * t)) + -(c1 * Q) * ((t : ℂ) * cexp ((-u - b') * t))) := by
    intro t ht
    rw [mid_ud h ht.1 ht.2, midUd, sub_self, Phi_zero, Phi_zero, hc1]
    simp only [← hu, ← hQ, Fin.sum_univ_four]
    have e0 : cexp (-a * t) = 1 / cexp (a * t) := by
      rw [neg_mul, exp_neg, one_div]
    have e1 : cexp ((-u - b') * t) = cexp (-b' * t) / cexp (t * u) := by
      rw [← exp_sub]; congr 1; ring
    have e2 : cexp ((u - b') * t) = cexp (-b' * t) * cexp (t * u) := by
      rw [← exp_add]; congr 1; ring
    have e3 : cexp ((a - b') * t) = cexp (-b' * t) * cexp (a * t) := by
      rw [← exp_add]; congr 1; ring
    have e4 : cexp ((-a - b') * t) = cexp (-b' * t) * cexp (-a * t) := by
      rw [← exp_add]; congr 1; ring
    simp only [Matrix.cons_val_zero, Matrix.cons_val_one, Matrix.cons_val, e1, e2, e3, e4, e0]
    have := exp_ne_zero (t * u)
    have := exp_ne_zero (a * t)
    rw [hU]
    field_simp
    ring
  rw [(piece h.hb.le (by fun_prop) hm).2, intervalIntegral.integral_add, intervalIntegral.integral_add, lin,
    intervalIntegral.integral_const_mul, intervalIntegral.integral_const_mul, int_t_exp n1, int_t_exp n2]
  rotate_left
  · exact (by fun_prop : Continuous fun t : ℝ => -c1 * ((t : ℂ) * cexp ((u - b') * t))).intervalIntegrable _ _
  · exact (by fun_prop : Continuous fun t : ℝ => -(c1 * Q) * ((t : ℂ) * cexp ((-u - b') * t))).intervalIntegrable _ _
  · exact Continuous.intervalIntegrable (by fun_prop) _ _
  · exact Continuous.intervalIntegrable (by fun_prop) _ _
  simp only [Fin.sum_univ_four, Matrix.cons_val_zero, Matrix.cons_val_one, Matrix.cons_val]
  change _ * Phi (a - b') beta + _ * Phi (-a - b') beta
    + _ * Phi (u - b') beta + _ * Phi (-u - b') beta + _ = _
  obtain ⟨G, hG⟩ : ∃ G, G = Phi (a - b') beta := ⟨_, rfl⟩
  obtain ⟨G', hG'⟩ : ∃ G', G' = Phi (-a - b') beta := ⟨_, rfl⟩
  have e1 : cexp ((-u - b') * beta) = -1 / Q := by
    rw [hQ, show (-u - b') * (beta : ℂ) = -(b' * beta) - beta * u by ring, exp_sub, exp_neg, eb']
    norm_num
  have e2 : cexp ((u - b') * beta) = -Q := by
    rw [hQ, show (u - b') * (beta : ℂ) = beta * u - b' * beta by ring, exp_sub, eb', div_neg, div_one]
  rw [Phi_val n1, Phi_val n2, e1, e2]
  simp only [← hu, ← hG, ← hG', ← hQ]
  have m1 : u - b' = -(b' - u) := by ring
  have m2 : -u - b' = -(b' + u) := by ring
  rw [m1, m2, hc1]
  obtain ⟨p, hp⟩ : ∃ p, p = 1 / (a + u) := ⟨_, rfl⟩
  rw [← hp]
  field_simp
  ring

end Verif.HubbardAtom
