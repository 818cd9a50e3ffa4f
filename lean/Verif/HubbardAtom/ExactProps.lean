import Verif.HubbardAtom.ExactOuter
import Verif.HubbardAtom.Defect

/-!
# C123: the functions of the Hubbard atom are its exact correlation functions
-/

noncomputable section

set_option linter.unusedSectionVars false

namespace Verif.HubbardAtom

open MeasureTheory Complex

variable {beta U : ℝ}

theorem iv_add_iw (beta : ℝ) (n m : ℤ) : iv beta n + iw beta m = iv beta (n + m) := by
  rw [iv, iv, iw]
  push_cast
  ring

theorem iv_re (beta : ℝ) (n : ℤ) : (iv beta n).re = 0 := by
  rw [iv, mul_comm, re_ofReal_mul, I_re, mul_zero]

theorem iv_im_ne (hb : 0 < beta) (n : ℤ) : (iv beta n).im ≠ 0 := by
  rw [iv, mul_comm, im_ofReal_mul, I_im, mul_one]
  have h1 : (2 * n + 1 : ℝ) ≠ 0 := by
    have : (2 * n + 1 : ℤ) ≠ 0 := by omega
    exact_mod_cast this
  have := Real.pi_ne_zero
  have := hb.ne'
  positivity

theorem iv_add_ne (hb : 0 < beta) (n : ℤ) (r : ℝ) : iv beta n + r ≠ 0 := by
  intro h
  have := congrArg Complex.im h
  rw [add_im, ofReal_im, add_zero, zero_im] at this
  exact iv_im_ne hb n this

theorem exp_iv (hb : 0 < beta) (n : ℤ) : cexp (iv beta n * beta) = -1 := by
  have hb' : (beta : ℂ) ≠ 0 := by exact_mod_cast hb.ne'
  have : iv beta n * beta = Real.pi * I + n * (2 * Real.pi * I) := by
    rw [iv]
    push_cast
    field_simp
    ring
  rw [this, exp_add, exp_pi_mul_I, exp_int_mul_two_pi_mul_I, mul_one]

theorem exp_iw (hb : 0 < beta) (m : ℤ) : cexp (iw beta m * beta) = 1 := by
  have hb' : (beta : ℂ) ≠ 0 := by exact_mod_cast hb.ne'
  have : iw beta m * beta = m * (2 * Real.pi * I) := by
    rw [iw]
    push_cast
    field_simp
  rw [this, exp_int_mul_two_pi_mul_I]

theorem iw_eq_zero (hb : 0 < beta) (m : ℤ) : iw beta m = 0 ↔ m = 0 := by
  rw [iw]
  have := hb.ne'
  simp [Real.pi_ne_zero, this]

theorem Phi_iw (hb : 0 < beta) (m : ℤ) : Phi (iw beta m) beta = if m = 0 then (beta : ℂ) else 0 := by
  by_cases h : m = 0
  · rw [if_pos h, (iw_eq_zero hb m).2 h, Phi_zero]
  · rw [if_neg h, Phi_val fun e => h ((iw_eq_zero hb m).1 e), exp_iw hb, sub_self, zero_div]

theorem data (hb : 0 < beta) (U : ℝ) (n m : ℤ) : Data beta U (iv beta n) (iv beta n + iw beta m) := by
  have h : ∀ n, iv beta n + U / 2 ≠ 0 ∧ iv beta n - U / 2 ≠ 0 := fun n => by
    constructor
    · have := iv_add_ne hb n (U / 2)
      push_cast at this
      exact this
    · have := iv_add_ne hb n (-(U / 2))
      push_cast at this
      rwa [← sub_eq_add_neg] at this
  refine ⟨hb, exp_iv hb n, ?_, (h n).1, (h n).2, ?_, ?_⟩
  · rw [iv_add_iw, exp_iv hb]
  · rw [iv_add_iw]; exact (h _).1
  · rw [iv_add_iw]; exact (h _).2

/-- C123 (one-particle function): `single_particle_greens_function` is the Green's function of both spins. -/
theorem C123_green (hb : 0 < beta) (U : ℝ) (σ : Fin 2) (n : ℤ) : g beta U n = gFreq beta U σ n := by
  have h := data hb U n 0
  obtain ⟨a, ha⟩ : ∃ a, a = iv beta n := ⟨_, rfl⟩
  obtain ⟨u, hu⟩ : ∃ u : ℂ, u = U / 2 := ⟨_, rfl⟩
  have hU : (U : ℂ) = 2 * u := by rw [hu]; ring
  have k1 := h.ha1
  have k2 := h.ha2
  have k0 := one_add_exp_ne beta U
  have ea := h.ea
  have na : a ≠ 0 := by
    rw [ha]
    have := iv_add_ne hb n 0
    rwa [ofReal_zero, add_zero] at this
  rw [← hu] at k0 k1 k2
  rw [← ha] at k1 k2 ea
  obtain ⟨Q, hQ⟩ : ∃ Q, Q = cexp (beta * u) := ⟨_, rfl⟩
  have nQ : Q ≠ 0 := hQ ▸ exp_ne_zero _
  rw [← hQ] at k0
  rw [gFreq, g, ← ha]
  have hm : ∀ t ∈ Set.Ioo (0 : ℝ) beta, cexp (a * t) * gTau beta U σ t
      = ∑ i, (![-1 / (2 * (1 + Q)), -Q / (2 * (1 + Q))] : Fin 2 → ℂ) i
        * cexp ((![a + u, a - u] : Fin 2 → ℂ) i * t) := by
    intro t ht
    rw [g_eq beta U σ ht.1]
    simp only [← hu, ← hQ, Fin.sum_univ_two, Matrix.cons_val_zero, Matrix.cons_val_one]
    have e1 : cexp ((a + u) * t) = cexp (a * t) * cexp (t * u) := by
      rw [← exp_add]; congr 1; ring
    have e2 : cexp ((a - u) * t) = cexp (a * t) / cexp (t * u) := by
      rw [← exp_sub]; congr 1; ring
    have := exp_ne_zero (t * u)
    rw [e1, e2]
    field_simp
    ring
  rw [(piece hb.le (by fun_prop) hm).2, lin]
  simp only [Fin.sum_univ_two, Matrix.cons_val_zero, Matrix.cons_val_one]
  change _ = _ * Phi (a + u) beta + _ * Phi (a - u) beta
  have e1 : cexp ((a + u) * beta) = -Q := by
    rw [hQ, show (a + u) * (beta : ℂ) = a * beta + beta * u by ring, exp_add, ea, neg_one_mul]
  have e2 : cexp ((a - u) * beta) = -1 / Q := by
    rw [hQ, show (a - u) * (beta : ℂ) = a * beta - beta * u by ring, exp_sub, ea]
  rw [Phi_val k1, Phi_val k2, e1, e2, hU]
  have k5 : a * (4 * a) - 2 * u * (2 * u) ≠ 0 := by
    have : a * (4 * a) - 2 * u * (2 * u) = 4 * ((a + u) * (a - u)) := by ring
    rw [this]
    exact mul_ne_zero (by norm_num) (mul_ne_zero k1 k2)
  have k6 : a ^ 2 - u ^ 2 ≠ 0 := by
    have : a ^ 2 - u ^ 2 = (a + u) * (a - u) := by ring
    rw [this]
    exact mul_ne_zero k1 k2
  have e : 1 / (a - 2 * u * (2 * u) / (4 * a)) = a / ((a + u) * (a - u)) := by
    rw [div_eq_div_iff]
    · field_simp
      ring
    · have : a - 2 * u * (2 * u) / (4 * a) = (a * (4 * a) - 2 * u * (2 * u)) / (4 * a) := by
        field_simp
      rw [this]
      exact div_ne_zero k5 (mul_ne_zero (by norm_num) na)
    · exact mul_ne_zero k1 k2
  rw [e]
  field_simp
  ring

/-- the disconnected parts cancel in the magnetic susceptibility -/
theorem magnetic_eq (hb : 0 < beta) (U : ℝ) (m n k : ℤ) :
    chiMagnetic beta U m n k = g2Freq beta U 0 0 m n k - g2Freq beta U 0 1 m n k := by
  rw [chiMagnetic, chiFreq, chiFreq, ← C123_green hb U 0, ← C123_green hb U 0, ← C123_green hb U 1]
  ring

theorem Phi_kr (hb : 0 < beta) {c : ℂ} {i j : ℤ} (h : c = iw beta (i - j)) : Phi c beta = beta * kr i j := by
  rw [h, Phi_iw hb, kr]
  by_cases e : i = j
  · rw [if_pos (by omega), if_pos e, mul_one]
  · rw [if_neg (by omega), if_neg e, mul_zero]

theorem Phi_kr' (hb : 0 < beta) {c : ℂ} {i j : ℤ} (h : c = iw beta (j - i)) : Phi c beta = beta * kr i j := by
  rw [h, Phi_iw hb, kr]
  by_cases e : i = j
  · rw [if_pos (by omega), if_pos e, mul_one]
  · rw [if_neg (by omega), if_neg e, mul_zero]

/-- the exact value of `B^2` -/
def zX (beta U : ℝ) : ℝ := U ^ 2 / 4 * (1 - 2 * th beta U)

theorem zX_eq (beta U : ℝ) : (zX beta U : ℂ)
    = (U / 2 : ℂ) ^ 2 * (3 - cexp (beta * (U / 2))) / (1 + cexp (beta * (U / 2))) := by
  have h : cexp (beta * (U / 2)) = (Real.exp (beta * U / 2) : ℝ) := by
    push_cast
    congr 1
    ring
  rw [h, zX, th_exp]
  have : (0 : ℝ) < Real.exp (beta * U / 2) + 1 := by positivity
  have h2 : ((Real.exp (beta * U / 2) : ℝ) : ℂ) + 1 ≠ 0 := by exact_mod_cast this.ne'
  have h3 : 1 + ((Real.exp (beta * U / 2) : ℝ) : ℂ) ≠ 0 := by rwa [add_comm] at h2
  obtain ⟨q, hq⟩ : ∃ q, q = Real.exp (beta * U / 2) := ⟨_, rfl⟩
  rw [← hq] at h2 h3 ⊢
  push_cast
  field_simp
  ring

/-- the exact susceptibility, in the form of the code -/
def chiX (beta U : ℝ) (m n k : ℤ) : ℂ :=
  kr n k * (beta / 2 * (2 * pp beta m n - zX beta U + U ^ 2 / 4) / nn beta U m n)
    + kr n (-m - k - 1) * (beta / 2 * (-zX beta U - U ^ 2 / 4) / nn beta U m n)
    + s1 beta U m * ((pp beta m n - cD beta U m) / nn beta U m n) * ((pp beta m k - cD beta U m) / nn beta U m k)
    + s2 beta U m * (1 / nn beta U m n) * (1 / nn beta U m k)

theorem nn_fac (beta U : ℝ) (m n : ℤ) : (nn beta U m n : ℂ)
    = (iv beta n + U / 2) * (iv beta n - U / 2) * ((iv beta n + iw beta m + U / 2) * (iv beta n + iw beta m - U / 2)) := by
  rw [← den_eq, den]
  norm_num
  ring

theorem om_sq (beta : ℝ) (m : ℤ) : (om beta m : ℂ) ^ 2 = -(iw beta m * iw beta m) := by
  rw [iw_mul, neg_neg]

theorem exact_ne (hb : 0 < beta) (U : ℝ) {m : ℤ} (hm : m ≠ 0) (n k : ℤ) :
    g2Freq beta U 0 0 m n k - g2Freq beta U 0 1 m n k = chiX beta U m n k := by
  have h := data hb U n m
  have h' := data hb U k m
  have e0 := om_sq beta m
  have p1 := neg_iv_mul beta m n
  have p2 := neg_iv_mul beta m k
  have q1 := nn_fac beta U m n
  have q2 := nn_fac beta U m k
  have c : cC beta U m = 0 := by rw [cC, if_neg hm]
  have hw : iw beta m ≠ 0 := fun e => hm ((iw_eq_zero hb m).1 e)
  have hwn : iv beta n + iw beta m - iv beta n ≠ 0 := by rwa [add_sub_cancel_left]
  have d1 : iv beta k + iw beta m - (iv beta n + iw beta m - iv beta n) + U / 2 ≠ 0 := by
    rw [add_sub_cancel_left, add_sub_cancel_right]; exact h'.ha1
  have d2 : iv beta k + iw beta m - (iv beta n + iw beta m - iv beta n) - U / 2 ≠ 0 := by
    rw [add_sub_cancel_left, add_sub_cancel_right]; exact h'.ha2
  have f1 : Phi (iv beta n + iw beta m - iv beta n) beta = 0 := by
    rw [add_sub_cancel_left, Phi_iw hb, if_neg hm]
  have f2 : Phi (iv beta n + iw beta m - (iv beta k + iw beta m)) beta = beta * kr n k := by
    refine Phi_kr hb ?_
    rw [iv, iv, iw, iw]
    push_cast
    ring
  have f3 : Phi (-iv beta n - (iv beta k + iw beta m)) beta = beta * kr n (-m - k - 1) := by
    refine Phi_kr' hb ?_
    rw [iv, iv, iw, iw]
    push_cast
    ring
  rw [g2Freq, g2Freq, out_uu h h'.eb h'.hb1 h'.hb2, out_ud_ne h hwn h'.eb h'.hb1 h'.hb2 d1 d2, f1, f2, f3,
    chiX, zX_eq, q1, q2, ← p1, ← p2, s1, s2, cD, e0, c]
  have k1 := h.ha1
  have k2 := h.ha2
  have k3 := h.hb1
  have k4 := h.hb2
  have j1 := h'.ha1
  have j2 := h'.ha2
  have j3 := h'.hb1
  have j4 := h'.hb2
  have k0 := one_add_exp_ne beta U
  clear h h' e0 p1 p2 q1 q2 c hwn d1 d2 f1 f2 f3
  generalize cexp (beta * (U / 2)) = Q at *
  obtain ⟨u, hu⟩ : ∃ u : ℂ, u = U / 2 := ⟨_, rfl⟩
  have hU : (U : ℂ) = 2 * u := by rw [hu]; ring
  rw [← hu] at k1 k2 k3 k4 j1 j2 j3 j4
  rw [← hu, hU]
  generalize iv beta n = a at *
  generalize iv beta k = a' at *
  generalize iw beta m = w at *
  generalize kr n k = D1
  generalize kr n (-m - k - 1) = D2
  simp only [add_sub_cancel_left, add_sub_cancel_right]
  obtain ⟨b, hb'⟩ : ∃ b, b = a + w := ⟨_, rfl⟩
  obtain ⟨b', hb''⟩ : ∃ b', b' = a' + w := ⟨_, rfl⟩
  rw [← hb'] at k3 k4 ⊢
  rw [← hb''] at j3 j4 ⊢
  have r1 : -(1 / 2 * (beta * (1 / ((a + u) * (b + u)) + 1 / ((a - u) * (b - u)))))
      - 2 * u / ((a + u) * (a - u)) / 2 * ((1 / (b + u) - 1 / (b - u)) * (Q * beta) / (1 + Q))
      = beta / 2 * (2 * (-a * b) - u ^ 2 * (3 - Q) / (1 + Q) + (2 * u) ^ 2 / 4)
        / ((a + u) * (a - u) * ((b + u) * (b - u))) := by
    field_simp
    ring
  have r2 : -(2 * u / ((a + u) * (a - u)) / 2 * ((1 / (b + u) - 1 / (b - u)) * (-beta) / (1 + Q)))
      = beta / 2 * (-(u ^ 2 * (3 - Q) / (1 + Q)) - (2 * u) ^ 2 / 4) / ((a + u) * (a - u) * ((b + u) * (b - u))) := by
    field_simp
    ring
  have r3 : -(2 * u / ((a + u) * (a - u)) / 2 * ((1 / (b + u) - 1 / w) / (a' - u) + (1 / (b - u) - 1 / w) / (a' + u)
          + (1 / w - 1 / (b - u)) / (b' - u) + (1 / w - 1 / (b + u)) / (b' + u)))
      = 2 * u * ((-a * b - u ^ 2) / ((a + u) * (a - u) * ((b + u) * (b - u))))
          * ((-a' * b' - u ^ 2) / ((a' + u) * (a' - u) * ((b' + u) * (b' - u))))
        - (2 * u) ^ 3 / 4 * ((2 * u) ^ 2 - w * w) / ((a + u) * (a - u) * ((b + u) * (b - u)))
          / ((a' + u) * (a' - u) * ((b' + u) * (b' - u))) := by
    field_simp
    rw [hb', hb'']
    ring
  linear_combination D1 * r1 + D2 * r2 + r3


theorem exact_zero (hb : 0 < beta) (hU0 : 0 < U) (n k : ℤ) :
    g2Freq beta U 0 0 0 n k - g2Freq beta U 0 1 0 n k = chiX beta U 0 n k := by
  have z : iw beta 0 = 0 := (iw_eq_zero hb 0).2 rfl
  have h := data hb U n 0
  have h' := data hb U k 0
  have e0 := om_sq beta 0
  have p1 := neg_iv_mul beta 0 n
  have p2 := neg_iv_mul beta 0 k
  have q1 := nn_fac beta U 0 n
  have q2 := nn_fac beta U 0 k
  have f2 : Phi (iv beta n - iv beta k) beta = beta * kr n k := by
    refine Phi_kr hb ?_
    rw [iv, iv, iw]
    push_cast
    ring
  have f3 : Phi (-iv beta n - iv beta k) beta = beta * kr n (-0 - k - 1) := by
    refine Phi_kr' hb ?_
    rw [iv, iv, iw]
    push_cast
    ring
  have c : cC beta U 0 = -(beta * (U / 2) * cexp (beta * (U / 2)) / (1 + cexp (beta * (U / 2)))) := by
    have k0 := one_add_exp_ne beta U
    have hq : cexp (beta * (U / 2)) = (Real.exp (beta * U / 2) : ℝ) := by
      push_cast
      congr 1
      ring
    rw [cC_zero, th_exp, hq]
    rw [hq] at k0
    have k0' : ((Real.exp (beta * U / 2) : ℝ) : ℂ) + 1 ≠ 0 := by rwa [add_comm] at k0
    obtain ⟨q, hq⟩ : ∃ q, q = Real.exp (beta * U / 2) := ⟨_, rfl⟩
    rw [← hq] at k0 k0' ⊢
    push_cast
    field_simp
    ring
  have c1 : 1 - cC beta U 0 ≠ 0 := by
    have : (0 : ℝ) < 1 + beta * U / 4 * (1 + th beta U) := by
      have := th_pos hb hU0
      positivity
    rw [cC_zero]
    have e : (1 : ℂ) - ((-(beta * U / 4 * (1 + th beta U)) : ℝ) : ℂ) = ((1 + beta * U / 4 * (1 + th beta U) : ℝ) : ℂ) := by
      push_cast
      ring
    rw [e]
    exact_mod_cast this.ne'
  rw [z, add_zero] at h h' p1 p2 q1 q2
  rw [z, mul_zero, neg_zero] at e0
  rw [g2Freq, g2Freq, z, add_zero, add_zero, out_uu h h'.eb h'.hb1 h'.hb2, out_ud_zero h h'.eb h'.hb1 h'.hb2, sub_self,
    Phi_zero, f2, f3, chiX, zX_eq, q1, q2, ← p1, ← p2, s1, s2, cD, e0]
  have k1 := h.ha1
  have k2 := h.ha2
  have j1 := h'.ha1
  have j2 := h'.ha2
  have k0 := one_add_exp_ne beta U
  clear h h' e0 p1 p2 q1 q2 f2 f3
  generalize cexp (beta * (U / 2)) = Q at *
  obtain ⟨u, hu⟩ : ∃ u : ℂ, u = U / 2 := ⟨_, rfl⟩
  have hU : (U : ℂ) = 2 * u := by rw [hu]; ring
  rw [← hu] at k1 k2 j1 j2 c
  rw [← hu, hU]
  generalize iv beta n = a at *
  generalize iv beta k = b at *
  generalize kr n k = D1
  generalize kr n (-0 - k - 1) = D2
  generalize cC beta U 0 = C at *
  have r1 : -(1 / 2 * (beta * (1 / ((a + u) * (a + u)) + 1 / ((a - u) * (a - u)))))
      - 2 * u / ((a + u) * (a - u)) / 2 * ((1 / (a + u) - 1 / (a - u)) * (Q * beta) / (1 + Q))
      = beta / 2 * (2 * (-a * a) - u ^ 2 * (3 - Q) / (1 + Q) + (2 * u) ^ 2 / 4)
        / ((a + u) * (a - u) * ((a + u) * (a - u))) := by
    field_simp
    ring
  have r2 : -(2 * u / ((a + u) * (a - u)) / 2 * ((1 / (a + u) - 1 / (a - u)) * (-beta) / (1 + Q)))
      = beta / 2 * (-(u ^ 2 * (3 - Q) / (1 + Q)) - (2 * u) ^ 2 / 4) / ((a + u) * (a - u) * ((a + u) * (a - u))) := by
    field_simp
    ring
  have r3 : 2 * u * (1 - C) * ((-a * a - 2 * u * (2 * u) * 0.25 * (1 + C) / (1 - C))
          / ((a + u) * (a - u) * ((a + u) * (a - u))))
          * ((-b * b - 2 * u * (2 * u) * 0.25 * (1 + C) / (1 - C)) / ((b + u) * (b - u) * ((b + u) * (b - u))))
        + -((2 * u) ^ 3 / 4) * ((2 * u) ^ 2 / (1 - C) + 0) * (1 / ((a + u) * (a - u) * ((a + u) * (a - u))))
          * (1 / ((b + u) * (b - u) * ((b + u) * (b - u))))
      = 2 * u * ((1 - C) * (a * a * (b * b)) + u ^ 2 * (1 + C) * (a * a + b * b) - u ^ 4 * (C + 3))
        / ((a + u) * (a - u) * ((a + u) * (a - u))) / ((b + u) * (b - u) * ((b + u) * (b - u))) := by
    norm_num
    field_simp
    ring
  have r4 : 1 / 2 * (beta * (1 / ((a + u) * (b + u)) + 1 / ((a - u) * (b - u))))
      - (2 * u / ((a + u) * (a - u)) / 2 * ((1 / (a + u) - 1 / (a - u)) / (b - u) + (1 / (a - u) - 1 / (a + u)) / (b + u)
          - 1 / (b - u) ^ 2 - 1 / (b + u) ^ 2 - beta * (Q / (b - u) + 1 / (b + u)) / (1 + Q))
        + beta / (a - u) / 2 * (1 / (b - u) + 1 / (b + u)))
      = 2 * u * ((1 - C) * (a * a * (b * b)) + u ^ 2 * (1 + C) * (a * a + b * b) - u ^ 4 * (C + 3))
        / ((a + u) * (a - u) * ((a + u) * (a - u))) / ((b + u) * (b - u) * ((b + u) * (b - u))) := by
    rw [c]
    field_simp
    ring
  linear_combination D1 * r1 + D2 * r2 + r4 - r3

/-- the exact magnetic susceptibility -/
theorem magnetic_value (hb : 0 < beta) (hU : 0 < U) (m n k : ℤ) : chiMagnetic beta U m n k = chiX beta U m n k := by
  rw [magnetic_eq hb]
  by_cases hm : m = 0
  · rw [hm, exact_zero hb hU]
  · rw [exact_ne hb U hm]

/-- C123 (two-particle function): as long as `exp(β U / 2) ≥ 3`, `chi_ph_magnetic` is the magnetic susceptibility of the
atom at all frequencies. -/
theorem C123_chi_partial (hb : 0 < beta) (hU : 0 < U) (h3 : 3 ≤ Real.exp (beta * U / 2)) (m n k : ℤ) :
    chi beta U m n k = chiMagnetic beta U m n k := by
  rw [magnetic_value hb hU, chi_eq hU, chiX, zX, zB_good h3]

/-- C123 (violated at high temperature): for `exp(β U / 2) < 3` the function differs from the susceptibility of the atom
at every bosonic frequency, for all fermionic frequencies `ν = ν'`. -/
theorem C123_high_temperature_violated (hb : 0 < beta) (hU : 0 < U) (h3 : Real.exp (beta * U / 2) < 3) (m n : ℤ) :
    chi beta U m n n ≠ chiMagnetic beta U m n n := by
  rw [magnetic_value hb hU, chi_eq hU, chiX, Ne, ← sub_eq_zero]
  have hn := (nn_pos hU beta m n).ne'
  have hn' : (nn beta U m n : ℂ) ≠ 0 := by exact_mod_cast hn
  have hb' : (beta : ℂ) ≠ 0 := by exact_mod_cast hb.ne'
  have hz : (zX beta U - zB beta U : ℂ) ≠ 0 := by
    rw [← ofReal_sub, zX, zB_bad h3]
    have h1 := th_half h3
    have : (0 : ℝ) < U ^ 2 / 4 * (1 - 2 * th beta U) - -(U ^ 2 / 4 * (1 - 2 * th beta U)) := by
      have : 0 < 1 - 2 * th beta U := by linarith
      have : 0 < U ^ 2 / 4 * (1 - 2 * th beta U) := by positivity
      linarith
    exact_mod_cast this.ne'
  have e : kr n n = 1 := if_pos rfl
  have e' : kr n (-m - n - 1) = 0 ∨ kr n (-m - n - 1) = 1 := by
    rw [kr]
    split_ifs
    · exact Or.inr rfl
    · exact Or.inl rfl
  have hD : (1 + kr n (-m - n - 1) : ℂ) ≠ 0 := by
    rcases e' with h | h <;> rw [h] <;> norm_num
  have : kr n n * (beta / 2 * (2 * pp beta m n - zB beta U + U ^ 2 / 4) / nn beta U m n)
        + kr n (-m - n - 1) * (beta / 2 * (-zB beta U - U ^ 2 / 4) / nn beta U m n)
        + s1 beta U m * ((pp beta m n - cD beta U m) / nn beta U m n) * ((pp beta m n - cD beta U m) / nn beta U m n)
        + s2 beta U m * (1 / nn beta U m n) * (1 / nn beta U m n)
      - (kr n n * (beta / 2 * (2 * pp beta m n - zX beta U + U ^ 2 / 4) / nn beta U m n)
        + kr n (-m - n - 1) * (beta / 2 * (-zX beta U - U ^ 2 / 4) / nn beta U m n)
        + s1 beta U m * ((pp beta m n - cD beta U m) / nn beta U m n) * ((pp beta m n - cD beta U m) / nn beta U m n)
        + s2 beta U m * (1 / nn beta U m n) * (1 / nn beta U m n))
      = (1 + kr n (-m - n - 1)) * (beta / 2 * (zX beta U - zB beta U) / nn beta U m n) := by
    rw [e]
    ring
  rw [this]
  exact mul_ne_zero hD (div_ne_zero (mul_ne_zero (div_ne_zero hb' two_ne_zero) hz) hn')

/-- C123 (static susceptibility): `chi_m_static` is `2 β <S_z^2>`. -/
theorem C123_static (beta U : ℝ) :
    (chiStatic beta U : ℂ) = 2 * beta * Fock.thermal beta (atomH U) (spinZ * spinZ) := by
  have k0 := one_add_exp_ne beta U
  have hs : ∀ i j, (spinZ * spinZ) i j = (Matrix.diagonal ![0, 1 / 4, 1 / 4, 0] : Op4) i j := by
    intro i j
    fin_cases i <;> fin_cases j <;>
      simp [spinZ, occ, ann, Matrix.mul_apply, Fin.sum_univ_four, Matrix.conjTranspose_apply] <;> norm_num
  rw [thermal_eq, hs, hs, hs, hs, chiStatic]
  have e : ((Real.exp (-beta * 0.5 * U) : ℝ) : ℂ) = 1 / cexp (beta * (U / 2)) := by
    push_cast
    rw [one_div, ← exp_neg]
    congr 1
    norm_num
    ring
  have hq := exp_ne_zero (beta * (U / 2))
  rw [ofReal_mul, ofReal_mul, ofReal_mul, ofReal_div, ofReal_add, ofReal_mul, e]
  generalize cexp (beta * (U / 2)) = Q at *
  have k0' : Q + 1 ≠ 0 := by rwa [add_comm] at k0
  simp
  norm_num
  left
  field_simp
  ring

/-- the hypotheses of `C123_chi_partial` are met at `β = ln 3`, `U = 2`, on the boundary -/
example (m n k : ℤ) : chi (Real.log 3) 2 m n k = chiMagnetic (Real.log 3) 2 m n k :=
  C123_chi_partial (Real.log_pos (by norm_num)) two_pos
    (by rw [mul_div_assoc, div_self two_ne_zero, mul_one, Real.exp_log (by norm_num)]) m n k

/-- those of `C123_high_temperature_violated` at `β = ln 2`, `U = 2` -/
example (m n : ℤ) : chi (Real.log 2) 2 m n n ≠ chiMagnetic (Real.log 2) 2 m n n :=
  C123_high_temperature_violated (Real.log_pos (by norm_num)) two_pos
    (by rw [mul_div_assoc, div_self two_ne_zero, mul_one, Real.exp_log (by norm_num)]; norm_num) m n

end Verif.HubbardAtom
