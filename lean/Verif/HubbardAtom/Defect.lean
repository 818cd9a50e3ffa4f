import Verif.HubbardAtom.Product
import Verif.HubbardAtom.Spec

/-!
# Values of the sums and the defect of the Bethe-Salpeter equation
-/

noncomputable section

namespace Verif.HubbardAtom

open Complex

/-! ### values -/

theorem th_exp (beta U : ℝ) : th beta U = (Real.exp (beta * U / 2) - 1) / (Real.exp (beta * U / 2) + 1) := by
  have h : Real.exp (beta * U / 2) = Real.exp (beta * U / 4) * Real.exp (beta * U / 4) := by
    rw [← Real.exp_add]
    congr 1
    ring
  rw [th, Real.tanh_eq_sinh_div_cosh, Real.sinh_eq, Real.cosh_eq, h, Real.exp_neg]
  have := Real.exp_pos (beta * U / 4)
  field_simp

theorem th_lt_one (beta U : ℝ) : th beta U < 1 := by
  rw [th_exp, div_lt_one (by positivity)]
  linarith

theorem th_pos {beta U : ℝ} (hb : 0 < beta) (hU : 0 < U) : 0 < th beta U := by
  rw [th_exp]
  have : 1 < Real.exp (beta * U / 2) := Real.one_lt_exp_iff.mpr (by positivity)
  exact div_pos (by linarith) (by positivity)

theorem zB_good {beta U : ℝ} (h : 3 ≤ Real.exp (beta * U / 2)) : zB beta U = U ^ 2 / 4 * (1 - 2 * th beta U) := by
  rw [zB, th_exp, abs_of_nonpos (by linarith)]
  have := Real.exp_pos (beta * U / 2)
  field_simp
  ring

theorem zB_bad {beta U : ℝ} (h : Real.exp (beta * U / 2) < 3) : zB beta U = -(U ^ 2 / 4 * (1 - 2 * th beta U)) := by
  rw [zB, th_exp, abs_of_pos (by linarith)]
  have := Real.exp_pos (beta * U / 2)
  field_simp
  ring

theorem th_half {beta U : ℝ} (h : Real.exp (beta * U / 2) < 3) : th beta U < 1 / 2 := by
  rw [th_exp, div_lt_iff₀ (by positivity)]
  linarith

theorem cC_zero (beta U : ℝ) : cC beta U 0 = ((-(beta * U / 4 * (1 + th beta U)) : ℝ) : ℂ) := by
  rw [cC, if_pos rfl, th_exp]
  congr 1
  rw [show -beta * U * 0.5 = -(beta * U / 2) by ring, Real.exp_neg]
  have := Real.exp_pos (beta * U / 2)
  field_simp
  ring

theorem cC_ne (beta U : ℝ) {m : ℤ} (hm : m ≠ 0) : cC beta U m = 0 := by rw [cC, if_neg hm]

theorem Regular.hz {beta U : ℝ} {m : ℤ} (h : Regular beta U m) (n : ℤ) : (pp beta m n : ℂ) ≠ zB beta U := by
  have := h.hB n
  rw [neg_iv_mul, cB_mul] at this
  exact sub_ne_zero.mp this

theorem Regular.ha {beta U : ℝ} {m : ℤ} (h : Regular beta U m) (n : ℤ) : (pp beta m n : ℂ) ≠ -(U ^ 2 / 4) := by
  have := h.hA n
  rw [neg_iv_mul, cA_mul] at this
  intro e
  exact this (by rw [e]; ring)

/-- `Σ 1/N` -/
def vL0 (beta U : ℝ) (m : ℤ) : ℂ :=
  if m = 0 then 2 / U ^ 2 * (beta / U * th beta U) - beta ^ 2 / (2 * U ^ 2) * (1 - th beta U ^ 2)
  else 2 * (beta / U * th beta U) / ((om beta m : ℂ) ^ 2 + U ^ 2)

/-- `Σ p/N` -/
def vP0 (beta U : ℝ) (m : ℤ) : ℂ :=
  if m = 0 then beta / U * th beta U - U ^ 2 / 4 * vL0 beta U m else U ^ 2 / 4 * vL0 beta U m

/-- `N(z)` -/
def vN (beta U : ℝ) (m : ℤ) : ℂ := (zB beta U + U ^ 2 / 4) ^ 2 + U ^ 2 / 4 * (om beta m : ℂ) ^ 2

/-- `Σ u/N` -/
def vL1 (beta U : ℝ) (m : ℤ) : ℂ :=
  (sig beta U m - vP0 beta U m - (zB beta U + U ^ 2 / 2) * vL0 beta U m) / vN beta U m

theorem hasSum_L0 {beta U : ℝ} (hb : 0 < beta) (hU : 0 < U) (m : ℤ) :
    HasSum (fun n : ℤ => 1 / (nn beta U m n : ℂ)) (vL0 beta U m) := by
  rw [vL0]
  split_ifs with h
  · subst h
    exact (hasSum_zero hb hU).1
  · exact (hasSum_ne hb hU h).1

theorem hasSum_P0 {beta U : ℝ} (hb : 0 < beta) (hU : 0 < U) (m : ℤ) :
    HasSum (fun n : ℤ => (pp beta m n : ℂ) / nn beta U m n) (vP0 beta U m) := by
  rw [vP0, vL0]
  split_ifs with h
  · subst h
    exact (hasSum_zero hb hU).2
  · exact (hasSum_ne hb hU h).2

theorem sums {beta U : ℝ} (hb : 0 < beta) (hU : 0 < U) {m : ℤ} (hr : Regular beta U m) (hN : vN beta U m ≠ 0) :
    Sums beta U m (vL0 beta U m) (vP0 beta U m) (vL1 beta U m) where
  h0 := hasSum_L0 hb hU m
  h1 := hasSum_P0 hb hU m
  hL := hasSum_L1 hU hr.hz hN (hasSum_sigma hb m (rt_sq beta U m) hr.hr hr.hz) (hasSum_L0 hb hU m) (hasSum_P0 hb hU m)

theorem vN_ne {beta U : ℝ} (hb : 0 < beta) (hU : 0 < U) {m : ℤ} (hm : m ≠ 0) : vN beta U m ≠ 0 := by
  have h : 0 < (zB beta U + U ^ 2 / 4) ^ 2 + U ^ 2 / 4 * om beta m ^ 2 := by
    have := om_ne_zero hb hm
    positivity
  rw [vN]
  exact_mod_cast h.ne'

theorem vN_zero {beta U : ℝ} (hU : 0 < U) (h3 : 3 ≤ Real.exp (beta * U / 2)) : vN beta U 0 ≠ 0 := by
  have h : 0 < (zB beta U + U ^ 2 / 4) ^ 2 + U ^ 2 / 4 * om beta 0 ^ 2 := by
    have h1 := th_lt_one beta U
    have : 0 < zB beta U + U ^ 2 / 4 := by
      rw [zB_good h3]
      nlinarith [sq_pos_of_pos hU]
    positivity
  rw [vN]
  exact_mod_cast h.ne'

/-- The defect vanishes at a nonzero bosonic frequency if `B²` has the right value. -/
theorem defect_ne {beta U : ℝ} (hb : 0 < beta) (hU : 0 < U) {m : ℤ} (hm : m ≠ 0) (hr : Regular beta U m)
    (h3 : 3 ≤ Real.exp (beta * U / 2)) (P Q : ℂ) :
    defect beta U m (vL0 beta U m) (vP0 beta U m) (vL1 beta U m) P Q = 0 := by
  have hb' : (beta : ℂ) ≠ 0 := by exact_mod_cast hb.ne'
  have hU' : (U : ℂ) ≠ 0 := by exact_mod_cast hU.ne'
  have hN := vN_ne hb hU hm
  have hW : (om beta m : ℂ) ^ 2 + U ^ 2 ≠ 0 := by
    have : om beta m ^ 2 + U ^ 2 ≠ 0 := by positivity
    exact_mod_cast this
  have hden := hr.hD
  rw [vDen_eq hb] at hden
  have hL0 : vL0 beta U m = 2 * (beta / U * th beta U) / ((om beta m : ℂ) ^ 2 + U ^ 2) := by rw [vL0, if_neg hm]
  have hP0 : vP0 beta U m = U ^ 2 / 4 * vL0 beta U m := by rw [vP0, if_neg hm]
  have hD : cD beta U m = U ^ 2 / 4 := by
    rw [cD, cC_ne _ _ hm]
    ring
  have hs1 : s1 beta U m = U := by rw [s1, cC_ne _ _ hm]; ring
  have hs2 : s2 beta U m = -(U ^ 3 / 4) * ((om beta m : ℂ) ^ 2 + U ^ 2) := by rw [s2, cC_ne _ _ hm]; ring
  have hz : (zB beta U : ℂ) = U ^ 2 / 4 * (1 - 2 * th beta U) := by rw [zB_good h3]; push_cast; ring
  -- `W L0`
  obtain ⟨W, hWd⟩ : ∃ W : ℂ, W = (om beta m : ℂ) ^ 2 + U ^ 2 := ⟨_, rfl⟩
  obtain ⟨z, hzd⟩ : ∃ z : ℂ, z = zB beta U := ⟨_, rfl⟩
  obtain ⟨S, hSd⟩ : ∃ S : ℂ, S = sig beta U m := ⟨_, rfl⟩
  obtain ⟨N, hNd⟩ : ∃ N : ℂ, N = vN beta U m := ⟨_, rfl⟩
  have hNe : N = z ^ 2 + U ^ 2 / 2 * z - 3 * (U ^ 2 / 4) ^ 2 + U ^ 2 / 4 * W := by
    rw [hNd, vN, hWd, hzd]
    ring
  have hth : (th beta U : ℂ) = (1 - 4 * z / U ^ 2) / 2 := by
    rw [hzd, hz]
    field_simp
    ring
  have hDw : vD beta U (iw beta m) = -U * N / (U * S / beta - 1) := by
    rw [vD_eq hb hU, hNd, vN, hSd]
  have hL1 : vL1 beta U m = (S - U ^ 2 / 4 * vL0 beta U m - (z + U ^ 2 / 2) * vL0 beta U m) / N := by
    rw [vL1, hP0, hNd, hSd, hzd]
  rw [← hSd] at hden
  rw [← hNd] at hN
  have hl : vL0 beta U m = beta * (1 - 4 * z / U ^ 2) / (U * W) := by
    rw [hL0, hth, ← hWd]
    field_simp
  rw [← hWd] at hW
  -- the two combinations with the vertex
  have hJ1 : vD beta U (iw beta m) * (vL0 beta U m + (z - U ^ 2 / 4) * vL1 beta U m) / beta = U ^ 2 / 4 - z := by
    rw [hDw, hL1]
    have : N * vL0 beta U m + (z - U ^ 2 / 4) * (S - U ^ 2 / 4 * vL0 beta U m - (z + U ^ 2 / 2) * vL0 beta U m)
        = (z - U ^ 2 / 4) * (beta / U) * (U * S / beta - 1) := by
      rw [hNe, hl]
      field_simp
      ring
    have h2 : vL0 beta U m + (z - U ^ 2 / 4) * ((S - U ^ 2 / 4 * vL0 beta U m - (z + U ^ 2 / 2) * vL0 beta U m) / N)
        = (z - U ^ 2 / 4) * (beta / U) * (U * S / beta - 1) / N := by
      rw [← this]
      field_simp
    rw [h2]
    generalize U * S / beta - 1 = y at hden ⊢
    field_simp
    ring
  have hL1' : vD beta U (iw beta m) + s2 beta U m + s2 beta U m * (vD beta U (iw beta m) * vL1 beta U m / beta) = 0 := by
    rw [hDw, hL1, hs2, ← hWd]
    have h2 : (-U * N / (U * S / beta - 1)) * ((S - U ^ 2 / 4 * vL0 beta U m - (z + U ^ 2 / 2) * vL0 beta U m) / N) / beta
        = -(U * S / beta - U / beta * (z + 3 * (U ^ 2 / 4)) * vL0 beta U m) / (U * S / beta - 1) := by
      generalize U * S / beta - 1 = y at hden ⊢
      field_simp
      ring
    rw [h2, hl, hNe]
    have h3 : (U : ℂ) * S / beta = (U * S / beta - 1) + 1 := by ring
    generalize U * S / beta - 1 = y at hden h3 ⊢
    rw [h3]
    field_simp
    ring
  unfold defect
  dsimp only
  rw [hs1, hD, hP0, ← hzd]
  have hE3 : -U * (P - z) * (Q - z) + U * (P - U ^ 2 / 4) * (Q - z)
      - s2 beta U m * ((Q - z) * U * vL0 beta U m / beta) = 0 := by
    rw [hs2, hl, ← hWd]
    field_simp
    ring
  linear_combination hE3 + U * (P - U ^ 2 / 4) * hJ1 + hL1'

/-- The defect vanishes at zero bosonic frequency if `B²` has the right value. -/
theorem defect_zero {beta U : ℝ} (hb : 0 < beta) (hU : 0 < U) (hr : Regular beta U 0)
    (h3 : 3 ≤ Real.exp (beta * U / 2)) (P Q : ℂ) :
    defect beta U 0 (vL0 beta U 0) (vP0 beta U 0) (vL1 beta U 0) P Q = 0 := by
  have hb' : (beta : ℂ) ≠ 0 := by exact_mod_cast hb.ne'
  have hU' : (U : ℂ) ≠ 0 := by exact_mod_cast hU.ne'
  have hN := vN_zero hU h3
  have hden := hr.hD
  rw [vDen_eq hb] at hden
  obtain ⟨t, ht⟩ : ∃ t : ℂ, t = th beta U := ⟨_, rfl⟩
  obtain ⟨C, hC⟩ : ∃ C : ℂ, C = cC beta U 0 := ⟨_, rfl⟩
  have hCe : (beta : ℂ) * U * (1 + t) = -4 * C := by
    rw [hC, cC_zero, ht]
    push_cast
    ring
  have hC1 : 1 - C ≠ 0 := by
    have h1 := th_pos hb hU
    have : 0 < 1 - -(beta * U / 4 * (1 + th beta U)) := by
      have : 0 < beta * U / 4 * (1 + th beta U) := by positivity
      linarith
    rw [hC, cC_zero]
    exact_mod_cast this.ne'
  have ht1 : 1 - t ≠ 0 := by
    have := (sub_pos.mpr (th_lt_one beta U)).ne'
    rw [ht]
    exact_mod_cast this
  have hl : vL0 beta U 0 = 2 * beta / U ^ 3 * (t + C * (1 - t)) := by
    rw [vL0, if_pos rfl, ← ht]
    field_simp
    linear_combination (-(1 - t)) * hCe
  have hP0 : vP0 beta U 0 = beta / U * t - U ^ 2 / 4 * vL0 beta U 0 := by rw [vP0, if_pos rfl, ht]
  have hz : (zB beta U : ℂ) = U ^ 2 / 4 * (1 - 2 * t) := by rw [zB_good h3, ht]; push_cast; ring
  have hD : cD beta U 0 = U ^ 2 / 4 * (1 + C) / (1 - C) := by
    rw [cD, ← hC]
    ring
  have hs1 : s1 beta U 0 = U * (1 - C) := by rw [s1, hC]
  have hom : (om beta 0 : ℂ) = 0 := by rw [om]; simp
  have hs2 : s2 beta U 0 = -(U ^ 5 / 4) / (1 - C) := by
    rw [s2, ← hC, hom]
    ring
  obtain ⟨S, hSd⟩ : ∃ S : ℂ, S = sig beta U 0 := ⟨_, rfl⟩
  have hNe : vN beta U 0 = (U ^ 2 / 2 * (1 - t)) ^ 2 := by
    rw [vN, hom, hz]
    ring
  have hDw : vD beta U (iw beta 0) = -U * (U ^ 2 / 2 * (1 - t)) ^ 2 / (U * S / beta - 1) := by
    rw [vD_eq hb hU, ← hNe, vN, hSd]
  have hL1 : vL1 beta U 0 = (S - beta / U * t - U ^ 2 / 4 * (2 - 2 * t) * vL0 beta U 0) / (U ^ 2 / 2 * (1 - t)) ^ 2 := by
    rw [vL1, hNe, hP0, hSd, hz]
    congr 1
    ring
  rw [← hSd] at hden
  have hS : S = beta / U * ((U * S / beta - 1) + 1) := by
    field_simp
    ring
  obtain ⟨y, hy⟩ : ∃ y : ℂ, y = U * S / beta - 1 := ⟨_, rfl⟩
  rw [← hy] at hden hS hDw
  rw [hS, hl] at hL1
  have hJ1 : vD beta U (iw beta 0) * (vL0 beta U 0 + (zB beta U - cD beta U 0) * vL1 beta U 0) / beta
      = cD beta U 0 - zB beta U := by
    rw [hDw, hL1, hz, hD, hl]
    field_simp
    ring
  have hL1' : vD beta U (iw beta 0) + s2 beta U 0 + s2 beta U 0 * (vD beta U (iw beta 0) * vL1 beta U 0 / beta) = 0 := by
    rw [hDw, hL1, hs2]
    field_simp
    ring
  unfold defect
  dsimp only
  have hE3 : -U * (P - zB beta U) * (Q - zB beta U) + s1 beta U 0 * (P - cD beta U 0) * ((Q - zB beta U)
        - (Q - zB beta U) * U * (vP0 beta U 0 - cD beta U 0 * vL0 beta U 0) / beta)
      - s2 beta U 0 * ((Q - zB beta U) * U * vL0 beta U 0 / beta) = 0 := by
    rw [hs1, hs2, hP0, hl, hD, hz]
    field_simp
    ring
  linear_combination hE3 + s1 beta U 0 * (P - cD beta U 0) * hJ1 + hL1'

end Verif.HubbardAtom
