import Verif.HubbardAtom.Model
import Verif.HubbardAtom.Sums

/-!
# Frequency sums for the Hubbard atom
-/

noncomputable section

namespace Verif.HubbardAtom

open Complex

/-- fermionic frequency -/
def nu (beta : ℝ) (n : ℤ) : ℝ := (2 * n + 1) * Real.pi / beta

/-- bosonic frequency -/
def om (beta : ℝ) (m : ℤ) : ℝ := 2 * m * Real.pi / beta

/-- product of two fermionic frequencies -/
def pp (beta : ℝ) (m n : ℤ) : ℝ := nu beta n * (nu beta n + om beta m)

theorem _root_.HasSum.congr_val {ι : Type*} {f : ι → ℂ} {a b : ℂ} (h : HasSum f a) (e : a = b) : HasSum f b :=
  e ▸ h

theorem cot_half_sub (y : ℂ) : cot (Real.pi * (1 / 2 - y)) = tan (Real.pi * y) := by
  rw [cot, tan, show (Real.pi : ℂ) * (1 / 2 - y) = Real.pi / 2 - Real.pi * y by ring, cos_pi_div_two_sub,
    sin_pi_div_two_sub]

theorem tan_sub_int_pi (x : ℂ) (k : ℤ) : tan (x - k * Real.pi) = tan x := Complex.tan_periodic.sub_int_mul_eq k

/-- sum over the frequencies of `1 / (ν (ν + ω) - z)` -/
theorem hasSum_sigma {beta : ℝ} (hb : 0 < beta) (m : ℤ) {z s : ℂ} (hs : s ^ 2 = (om beta m : ℂ) ^ 2 + 4 * z)
    (hs0 : s ≠ 0) (hp : ∀ n, (pp beta m n : ℂ) ≠ z) :
    HasSum (fun n : ℤ => 1 / ((pp beta m n : ℂ) - z)) (beta / s * tan (beta * (s + om beta m) / 4)) := by
  have hpi : (Real.pi : ℂ) ≠ 0 := by exact_mod_cast Real.pi_ne_zero
  have hb' : (beta : ℂ) ≠ 0 := by exact_mod_cast hb.ne'
  obtain ⟨r1, h1⟩ : ∃ r1 : ℂ, r1 = (s - om beta m) / 2 := ⟨_, rfl⟩
  obtain ⟨r2, h2⟩ : ∃ r2 : ℂ, r2 = (-s - om beta m) / 2 := ⟨_, rfl⟩
  have hfac : ∀ n, (pp beta m n : ℂ) - z = ((nu beta n : ℂ) - r1) * ((nu beta n : ℂ) - r2) := by
    intro n
    rw [h1, h2, pp]
    push_cast
    linear_combination ((1 : ℂ) / 4) * hs
  have hlin : ∀ (r : ℂ) (n : ℤ), 1 / 2 - beta * r / (2 * Real.pi) + n
      = beta / (2 * Real.pi) * ((nu beta n : ℂ) - r) := by
    intro r n
    rw [nu]
    push_cast
    field_simp
    ring
  have hc : ∀ r : ℂ, (∀ n, (nu beta n : ℂ) - r ≠ 0) → 1 / 2 - beta * r / (2 * Real.pi) ∈ integerComplement := by
    intro r hr
    rw [mem_integerComplement_iff]
    rintro ⟨k, hk⟩
    have := hlin r (-k)
    rw [← hk] at this
    push_cast at this
    rw [add_neg_cancel] at this
    have h0 : (beta : ℂ) / (2 * Real.pi) ≠ 0 :=
      div_ne_zero hb' (mul_ne_zero two_ne_zero hpi)
    rcases mul_eq_zero.mp this.symm with h | h
    · exact h0 h
    · exact hr _ h
  have hne : ∀ n, ((nu beta n : ℂ) - r1) * ((nu beta n : ℂ) - r2) ≠ 0 := fun n => by
    rw [← hfac]
    exact sub_ne_zero.mpr (hp n)
  have hsum := (hasSum_sub_inv (hc r1 fun n => left_ne_zero_of_mul (hne n))
    (hc r2 fun n => right_ne_zero_of_mul (hne n))).mul_left (beta / (2 * Real.pi * s))
  have harg : ∀ r : ℂ, (Real.pi : ℂ) * (beta * r / (2 * Real.pi)) = beta * r / 2 := by
    intro r
    field_simp
  have hfun : (fun n : ℤ => 1 / ((pp beta m n : ℂ) - z)) = fun n : ℤ => beta / (2 * Real.pi * s)
      * (1 / (1 / 2 - beta * r1 / (2 * Real.pi) + n) - 1 / (1 / 2 - beta * r2 / (2 * Real.pi) + n)) := by
    funext n
    have e1 := left_ne_zero_of_mul (hne n)
    have e2 := right_ne_zero_of_mul (hne n)
    rw [hfac, hlin, hlin]
    have hs' : s = r1 - r2 := by rw [h1, h2]; ring
    have hs1 : r1 - r2 ≠ 0 := hs' ▸ hs0
    rw [hs']
    field_simp
    ring
  rw [hfun]
  refine hsum.congr_val ?_
  rw [cot_half_sub, cot_half_sub, harg, harg]
  have t1 : tan (beta * r1 / 2) = tan (beta * (s + om beta m) / 4) := by
    rw [← tan_sub_int_pi (beta * (s + om beta m) / 4) m, h1, om]
    congr 1
    push_cast
    field_simp
    ring
  have t2 : tan (beta * r2 / 2) = -tan (beta * (s + om beta m) / 4) := by
    rw [← tan_neg, h2]
    congr 1
    ring
  rw [t1, t2]
  field_simp
  ring

/-- `tanh (β U / 4)` -/
def th (beta U : ℝ) : ℝ := Real.tanh (beta * U / 4)

theorem tan_I_mul_real (y : ℝ) : tan (y * I) = (Real.tanh y : ℝ) * I := by
  rw [tan_mul_I, ofReal_tanh]

theorem nu_ne_zero {beta : ℝ} (hb : 0 < beta) (n : ℤ) : nu beta n ≠ 0 := by
  rw [nu]
  have h : (2 * (n : ℝ) + 1) ≠ 0 := by
    intro h
    have : (2 * n + 1 : ℤ) = 0 := by exact_mod_cast h
    omega
  exact div_ne_zero (mul_ne_zero h Real.pi_ne_zero) hb.ne'

theorem nu_add_om (beta : ℝ) (m n : ℤ) : nu beta n + om beta m = nu beta (n + m) := by
  rw [nu, nu, om, ← add_div]
  push_cast
  congr 1
  ring

theorem pp_ne_zero {beta : ℝ} (hb : 0 < beta) (m n : ℤ) : pp beta m n ≠ 0 := by
  rw [pp, nu_add_om]
  exact mul_ne_zero (nu_ne_zero hb _) (nu_ne_zero hb _)

theorem om_ne_zero {beta : ℝ} (hb : 0 < beta) {m : ℤ} (hm : m ≠ 0) : om beta m ≠ 0 := by
  rw [om]
  exact div_ne_zero (mul_ne_zero (mul_ne_zero two_ne_zero (by exact_mod_cast hm)) Real.pi_ne_zero) hb.ne'

/-- the denominator of the susceptibility -/
def nn (beta U : ℝ) (m n : ℤ) : ℝ := (nu beta n ^ 2 + U ^ 2 / 4) * ((nu beta n + om beta m) ^ 2 + U ^ 2 / 4)

theorem nn_pos {U : ℝ} (hU : 0 < U) (beta : ℝ) (m n : ℤ) : 0 < nn beta U m n := by
  rw [nn]
  positivity

theorem nn_eq (beta U : ℝ) (m n : ℤ) :
    nn beta U m n = (pp beta m n + U ^ 2 / 4) ^ 2 + U ^ 2 / 4 * om beta m ^ 2 := by
  rw [nn, pp]
  ring

/-- `Σ 1 / (ν² + U²/4)` -/
theorem hasSum_T {beta U : ℝ} (hb : 0 < beta) (hU : 0 < U) :
    HasSum (fun n : ℤ => 1 / ((nu beta n : ℂ) ^ 2 + (U : ℂ) ^ 2 / 4)) ((beta : ℂ) / U * th beta U) := by
  have hU' : (U : ℂ) ≠ 0 := by exact_mod_cast hU.ne'
  have h := hasSum_sigma hb 0 (z := -(U : ℂ) ^ 2 / 4) (s := U * I)
    (by rw [om]; simp [mul_pow]; ring) (mul_ne_zero hU' I_ne_zero) (by
      intro n h
      have h' : pp beta 0 n = -U ^ 2 / 4 := by exact_mod_cast h
      rw [pp, om] at h'
      simp only [Int.cast_zero, mul_zero, zero_mul, zero_div, add_zero] at h'
      nlinarith [sq_nonneg (nu beta n), sq_pos_of_pos hU])
  refine (h.congr_val ?_).congr_fun fun n => ?_
  · have : (beta : ℂ) * (U * I + om beta 0) / 4 = ((beta * U / 4 : ℝ) : ℂ) * I := by
      rw [om]
      push_cast
      ring
    rw [this, tan_I_mul_real, th]
    field_simp
  · rw [pp, om]
    push_cast
    congr 1
    ring

/-- `Σ 1 / (p - z)` at `z = -U²/4 ± i ω U/2` -/
theorem hasSum_pm {beta U : ℝ} (hb : 0 < beta) (hU : 0 < U) {m : ℤ} (hm : m ≠ 0) {e : ℝ} (he : e ^ 2 = 1) :
    HasSum (fun n : ℤ => 1 / ((pp beta m n : ℂ) - (-(U : ℂ) ^ 2 / 4 + e * om beta m * U / 2 * I)))
      (beta / (om beta m + e * U * I) * (e * th beta U * I)) := by
  have hom := om_ne_zero hb hm
  have h := hasSum_sigma hb m (z := -(U : ℂ) ^ 2 / 4 + e * om beta m * U / 2 * I) (s := om beta m + e * U * I)
    (by
      have he' : (e : ℂ) ^ 2 = 1 := by exact_mod_cast he
      linear_combination (-(U : ℂ) ^ 2) * he' + ((e : ℂ) ^ 2 * (U : ℂ) ^ 2) * I_sq)
    (by
      intro h
      have := congrArg Complex.re h
      simp at this
      exact hom this)
    (by
      intro n h
      have hz : -(U : ℂ) ^ 2 / 4 + e * om beta m * U / 2 * I
          = ((-U ^ 2 / 4 : ℝ) : ℂ) + ((e * om beta m * U / 2 : ℝ) : ℂ) * I := by push_cast; ring
      rw [hz] at h
      have := congrArg Complex.im h
      simp only [ofReal_im, add_im, mul_im, ofReal_re, I_im, I_re, mul_one, mul_zero, add_zero, zero_add] at this
      have he0 : e ≠ 0 := by rintro rfl; norm_num at he
      have : e * om beta m * U = 0 := by linarith
      simp only [mul_eq_zero] at this
      rcases this with (h | h) | h
      · exact he0 h
      · exact hom h
      · exact hU.ne' h)
  refine h.congr_val ?_
  have : (beta : ℂ) * (om beta m + e * U * I + om beta m) / 4 = ((beta * (e * U) / 4 : ℝ) : ℂ) * I + m * Real.pi := by
    have hb' : (beta : ℂ) ≠ 0 := by exact_mod_cast hb.ne'
    rw [om]
    push_cast
    field_simp
    ring
  rw [this, ← tan_sub_int_pi _ m, add_sub_cancel_right, tan_I_mul_real, th]
  have : Real.tanh (beta * (e * U) / 4) = e * Real.tanh (beta * U / 4) := by
    have : e = 1 ∨ e = -1 := by
      have : (e - 1) * (e + 1) = 0 := by linear_combination he
      rcases mul_eq_zero.mp this with h | h
      · left; linarith
      · right; linarith
    rcases this with rfl | rfl
    · simp
    · rw [neg_one_mul (Real.tanh _), ← Real.tanh_neg]
      congr 1
      ring
  rw [this]
  push_cast
  ring

/-- `Σ 1/N` and `Σ p/N` at a nonzero bosonic frequency -/
theorem hasSum_ne {beta U : ℝ} (hb : 0 < beta) (hU : 0 < U) {m : ℤ} (hm : m ≠ 0) :
    HasSum (fun n : ℤ => 1 / (nn beta U m n : ℂ)) (2 * (beta / U * th beta U) / ((om beta m : ℂ) ^ 2 + U ^ 2))
    ∧ HasSum (fun n : ℤ => (pp beta m n : ℂ) / nn beta U m n)
      (U ^ 2 / 4 * (2 * (beta / U * th beta U) / ((om beta m : ℂ) ^ 2 + U ^ 2))) := by
  have hom := om_ne_zero hb hm
  have hp := hasSum_pm hb hU hm (e := 1) (by norm_num)
  have hq := hasSum_pm hb hU hm (e := -1) (by norm_num)
  have hU' : (U : ℂ) ≠ 0 := by exact_mod_cast hU.ne'
  have hom' : (om beta m : ℂ) ≠ 0 := by exact_mod_cast hom
  obtain ⟨w, hw⟩ : ∃ w : ℂ, w = om beta m := ⟨_, rfl⟩
  have hW : w ^ 2 + (U : ℂ) ^ 2 ≠ 0 := by
    rw [hw]
    have : om beta m ^ 2 + U ^ 2 ≠ 0 := by positivity
    exact_mod_cast this
  have hfac : ∀ n, (nn beta U m n : ℂ)
      = ((pp beta m n : ℂ) - (-(U : ℂ) ^ 2 / 4 + w * U / 2 * I)) * ((pp beta m n : ℂ) - (-(U : ℂ) ^ 2 / 4 - w * U / 2 * I)) := by
    intro n
    rw [nn_eq, hw]
    push_cast
    linear_combination ((U : ℂ) ^ 2 / 4 * (om beta m : ℂ) ^ 2) * I_sq
  have hnz : ∀ n, (nn beta U m n : ℂ) ≠ 0 := fun n => by exact_mod_cast (nn_pos hU beta m n).ne'
  simp only [ofReal_one, ofReal_neg, one_mul, neg_mul, neg_div, ← sub_eq_add_neg, ← hw] at hp hq
  rw [← hw] at hom' ⊢
  have e1 : w + U * I ≠ 0 := by
    intro h
    apply hW
    linear_combination (w - U * I) * h + (U : ℂ) ^ 2 * I_sq
  have e2 : w - U * I ≠ 0 := by
    intro h
    apply hW
    linear_combination (w + U * I) * h + (U : ℂ) ^ 2 * I_sq
  have hWf : w ^ 2 + (U : ℂ) ^ 2 = (w + U * I) * (w - U * I) := by linear_combination (U : ℂ) ^ 2 * I_sq
  constructor
  · refine (((hp.sub hq).mul_left (1 / (w * U * I))).congr_val ?_).congr_fun fun n => ?_
    · rw [hWf]
      have := I_ne_zero
      field_simp
      ring
    · have h1 := hnz n
      rw [hfac n] at h1 ⊢
      have h2 := left_ne_zero_of_mul h1
      have h3 := right_ne_zero_of_mul h1
      have := I_ne_zero
      rw [div_sub_div _ _ (by simpa [neg_div] using h2) (by simpa [neg_div] using h3)]
      field_simp
      ring
  · refine (((hp.mul_left (-(U : ℂ) ^ 2 / 4 + w * U / 2 * I)).sub (hq.mul_left (-(U : ℂ) ^ 2 / 4 - w * U / 2 * I))
      |>.mul_left (1 / (w * U * I))).congr_val ?_).congr_fun fun n => ?_
    · rw [hWf]
      have := I_ne_zero
      field_simp
      ring_nf
      simp only [I_sq]
      ring_nf
    · have h1 := hnz n
      rw [hfac n] at h1 ⊢
      have h2 := left_ne_zero_of_mul h1
      have h3 := right_ne_zero_of_mul h1
      have := I_ne_zero
      rw [← mul_div_assoc, ← mul_div_assoc, div_sub_div _ _ (by simpa [neg_div] using h2) (by simpa [neg_div] using h3)]
      field_simp
      ring

theorem nu_neg (beta : ℝ) (n : ℤ) : nu beta (-n - 1) = -nu beta n := by
  rw [nu, nu, ← neg_div]
  push_cast
  congr 1
  ring

/-- reflection of the fermionic frequencies -/
def refl (m : ℤ) : ℤ ≃ ℤ where
  toFun n := -m - n - 1
  invFun n := -m - n - 1
  left_inv n := by ring
  right_inv n := by ring

/-- `Σ 1 / (ν ± i U/2)²` -/
theorem hasSum_sq {beta U : ℝ} (hb : 0 < beta) (hU : 0 < U) :
    HasSum (fun n : ℤ => 1 / ((nu beta n : ℂ) + U / 2 * I) ^ 2) (((beta ^ 2 / 4 * (1 - th beta U ^ 2) : ℝ) : ℂ)) := by
  have hpi : (Real.pi : ℂ) ≠ 0 := by exact_mod_cast Real.pi_ne_zero
  have hb' : (beta : ℂ) ≠ 0 := by exact_mod_cast hb.ne'
  obtain ⟨y, hy⟩ : ∃ y : ℝ, y = beta * U / (4 * Real.pi) := ⟨_, rfl⟩
  have hy0 : 0 < y := by rw [hy]; positivity
  have h := (hasSum_inv_sq (z := 1 / 2 + y * I) (by
    simp only [add_im, mul_im, ofReal_re, ofReal_im, I_im, I_re]
    norm_num
    exact hy0)).mul_left (((beta : ℂ) / (2 * Real.pi)) ^ 2)
  refine (h.congr_val ?_).congr_fun fun n => ?_
  · have hs : sin (Real.pi * (1 / 2 + y * I)) = ((Real.cosh (beta * U / 4) : ℝ) : ℂ) := by
      rw [show (Real.pi : ℂ) * (1 / 2 + y * I) = Real.pi / 2 + ((beta * U / 4 : ℝ) : ℂ) * I by
        rw [hy]; push_cast; field_simp]
      rw [add_comm, sin_add_pi_div_two, cos_mul_I, ofReal_cosh]
    rw [hs]
    have hc := Real.cosh_pos (beta * U / 4)
    have hth : 1 - th beta U ^ 2 = 1 / Real.cosh (beta * U / 4) ^ 2 := by
      rw [th, Real.tanh_eq_sinh_div_cosh]
      field_simp
      linear_combination Real.cosh_sq_sub_sinh_sq (beta * U / 4)
    rw [hth]
    have hc' : (Real.cosh (beta * U / 4) : ℂ) ≠ 0 := by exact_mod_cast hc.ne'
    push_cast at hc' ⊢
    field_simp
    ring
  · have e : (nu beta n : ℂ) + U / 2 * I = 2 * Real.pi / beta * (1 / 2 + y * I + n) := by
      rw [nu, hy]
      push_cast
      field_simp
      ring
    rw [e]
    by_cases h0 : (1 / 2 + y * I + n : ℂ) = 0
    · rw [h0]; simp
    field_simp

/-- `Σ 1/N` and `Σ p/N` at zero bosonic frequency -/
theorem hasSum_zero {beta U : ℝ} (hb : 0 < beta) (hU : 0 < U) :
    HasSum (fun n : ℤ => 1 / (nn beta U 0 n : ℂ))
      (2 / U ^ 2 * (beta / U * th beta U) - beta ^ 2 / (2 * U ^ 2) * (1 - th beta U ^ 2))
    ∧ HasSum (fun n : ℤ => (pp beta 0 n : ℂ) / nn beta U 0 n)
      (beta / U * th beta U
        - U ^ 2 / 4 * (2 / U ^ 2 * (beta / U * th beta U) - beta ^ 2 / (2 * U ^ 2) * (1 - th beta U ^ 2))) := by
  have hU' : (U : ℂ) ≠ 0 := by exact_mod_cast hU.ne'
  have hT := hasSum_T hb hU
  have h1 := hasSum_sq hb hU
  have h2 := (refl 0).hasSum_iff.mpr h1
  have hpos : ∀ n, ((nu beta n : ℂ) ^ 2 + (U : ℂ) ^ 2 / 4) ≠ 0 := fun n => by
    have : nu beta n ^ 2 + U ^ 2 / 4 ≠ 0 := by positivity
    exact_mod_cast this
  have hN : ∀ n, (nn beta U 0 n : ℂ) = ((nu beta n : ℂ) ^ 2 + (U : ℂ) ^ 2 / 4) ^ 2 := fun n => by
    rw [nn, om]
    push_cast
    ring
  have hA : HasSum (fun n : ℤ => 1 / (nn beta U 0 n : ℂ))
      (2 / U ^ 2 * (beta / U * th beta U) - beta ^ 2 / (2 * U ^ 2) * (1 - th beta U ^ 2)) := by
    refine (((hT.mul_left 2).sub (h1.add h2)).mul_left (1 / (U : ℂ) ^ 2)).congr_val ?_ |>.congr_fun fun n => ?_
    · push_cast
      field_simp
      ring
    · have e : nu beta (refl 0 n) = -nu beta n := by
        rw [← nu_neg]
        simp [refl]
      simp only [Function.comp_apply, e]
      rw [hN]
      have hp := hpos n
      have hf : (nu beta n : ℂ) ^ 2 + (U : ℂ) ^ 2 / 4 = (nu beta n + U / 2 * I) * (nu beta n - U / 2 * I) := by
        linear_combination ((U : ℂ) ^ 2 / 4) * I_sq
      rw [hf] at hp ⊢
      have hp1 := left_ne_zero_of_mul hp
      have hp2 := right_ne_zero_of_mul hp
      have hp3 : -(nu beta n : ℂ) + U / 2 * I ≠ 0 := fun h => hp2 (by linear_combination -h)
      push_cast
      obtain ⟨v, hv⟩ : ∃ v : ℂ, v = nu beta n := ⟨_, rfl⟩
      obtain ⟨a, ha⟩ : ∃ a : ℂ, a = U / 2 * I := ⟨_, rfl⟩
      have hUa : (U : ℂ) ^ 2 = -4 * a ^ 2 := by rw [ha]; linear_combination ((U : ℂ) ^ 2) * I_sq
      have ha0 : a ≠ 0 := by rw [ha]; exact mul_ne_zero (div_ne_zero hU' two_ne_zero) I_ne_zero
      rw [← hv, ← ha] at hp1 hp2 hp3 ⊢
      rw [hUa]
      have e1 : (-v + a) ^ 2 = (v - a) ^ 2 := by ring
      rw [e1]
      field_simp
      ring
  refine ⟨hA, (hT.sub (hA.mul_left ((U : ℂ) ^ 2 / 4))).congr_fun fun n => ?_⟩
  have hp := hpos n
  have e : (pp beta 0 n : ℂ) = (nu beta n : ℂ) ^ 2 := by
    rw [pp, om]
    push_cast
    ring
  rw [hN, e]
  obtain ⟨y, hy⟩ : ∃ y : ℂ, y = (nu beta n : ℂ) ^ 2 + (U : ℂ) ^ 2 / 4 := ⟨_, rfl⟩
  have hv : (nu beta n : ℂ) ^ 2 = y - (U : ℂ) ^ 2 / 4 := by rw [hy]; ring
  rw [← hy] at hp ⊢
  rw [hv]
  field_simp

/-- `Σ u/N` with `u = 1/(p - z)` -/
theorem hasSum_L1 {beta U : ℝ} (hU : 0 < U) {m : ℤ} {z S L0 P0 : ℂ} (hz : ∀ n, (pp beta m n : ℂ) ≠ z)
    (hN : (z + U ^ 2 / 4) ^ 2 + U ^ 2 / 4 * (om beta m : ℂ) ^ 2 ≠ 0)
    (hS : HasSum (fun n : ℤ => 1 / ((pp beta m n : ℂ) - z)) S)
    (h0 : HasSum (fun n : ℤ => 1 / (nn beta U m n : ℂ)) L0)
    (h1 : HasSum (fun n : ℤ => (pp beta m n : ℂ) / nn beta U m n) P0) :
    HasSum (fun n : ℤ => 1 / ((pp beta m n : ℂ) - z) / nn beta U m n)
      ((S - P0 - (z + U ^ 2 / 2) * L0) / ((z + U ^ 2 / 4) ^ 2 + U ^ 2 / 4 * (om beta m : ℂ) ^ 2)) := by
  refine (((hS.sub h1).sub (h0.mul_left (z + U ^ 2 / 2))).div_const _).congr_fun fun n => ?_
  have hz' := sub_ne_zero.mpr (hz n)
  have hn : (nn beta U m n : ℂ) ≠ 0 := by exact_mod_cast (nn_pos hU beta m n).ne'
  have e : (nn beta U m n : ℂ) = ((pp beta m n : ℂ) + U ^ 2 / 4) ^ 2 + U ^ 2 / 4 * (om beta m : ℂ) ^ 2 := by
    rw [nn_eq]
    push_cast
    rfl
  rw [eq_div_iff hN]
  field_simp
  rw [e]
  ring

end Verif.HubbardAtom
