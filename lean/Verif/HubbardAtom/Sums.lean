import Mathlib.Analysis.SpecialFunctions.Trigonometric.Cotangent
import Mathlib.Tactic.LinearCombination

/-!
# Frequency sums

Sums over all fermionic Matsubara frequencies of rational functions, from the Mittag-Leffler expansion of the cotangent.
-/

noncomputable section

namespace Verif.HubbardAtom

open Complex Filter Asymptotics

theorem summable_inv_mul (z1 z2 : ℂ) : Summable fun n : ℤ => ((z1 + n) * (z2 + n))⁻¹ := by
  apply EisensteinSeries.summable_inv_of_isBigO_rpow_inv (a := 2) (by norm_num)
  simpa [pow_two] using (EisensteinSeries.linear_inv_isBigO_right 1 z2).mul
    (EisensteinSeries.linear_inv_isBigO_right 1 z1)

theorem hasSum_cotTerm {z : ℂ} (hz : z ∈ integerComplement) :
    HasSum (fun n : ℕ => cotTerm z n) (Real.pi * cot (Real.pi * z) - 1 / z) := by
  rw [cot_series_rep' hz]
  exact (summable_cotTerm hz).hasSum

theorem summable_sub_inv {z1 z2 : ℂ} (h1 : z1 ∈ integerComplement) (h2 : z2 ∈ integerComplement) :
    Summable fun n : ℤ => 1 / (z1 + n) - 1 / (z2 + n) := by
  refine ((summable_inv_mul z1 z2).mul_left (z2 - z1)).congr fun n => ?_
  have e1 := integerComplement_add_ne_zero h1 n
  have e2 := integerComplement_add_ne_zero h2 n
  rw [mul_inv, div_sub_div _ _ e1 e2, div_eq_mul_inv, mul_inv]
  ring

/-- from the symmetric partial sums to the sum over all integers -/
theorem hasSum_of_symmetric {f : ℤ → ℂ} (hs : Summable f) {x : ℂ}
    (h : HasSum (fun n : ℕ => f (n + 1 : ℕ) + f (-(n + 1 : ℕ))) x) : HasSum f (x + f 0) := by
  have hn := hs.hasSum.nat_add_neg
  have hu := (hasSum_nat_add_iff (f := fun k : ℕ => f k + f (-k)) 1).mp h
  have key := hn.unique hu
  simp only [Finset.range_one, Finset.sum_singleton, Nat.cast_zero, neg_zero] at key
  have ht : ∑' n : ℤ, f n = x + f 0 := by linear_combination key
  rw [← ht]
  exact hs.hasSum

/-- difference of two cotangent series -/
theorem hasSum_sub_inv {z1 z2 : ℂ} (h1 : z1 ∈ integerComplement) (h2 : z2 ∈ integerComplement) :
    HasSum (fun n : ℤ => 1 / (z1 + n) - 1 / (z2 + n))
      (Real.pi * cot (Real.pi * z1) - Real.pi * cot (Real.pi * z2)) := by
  have hd := (hasSum_cotTerm h1).sub (hasSum_cotTerm h2)
  have := hasSum_of_symmetric (summable_sub_inv h1 h2) (x := Real.pi * cot (Real.pi * z1) - 1 / z1
    - (Real.pi * cot (Real.pi * z2) - 1 / z2)) (by
      refine hd.congr_fun fun n => ?_
      simp only [cotTerm]
      push_cast
      ring)
  convert this using 1
  simp
  ring

/-- sum of the squares of the inverses -/
theorem hasSum_inv_sq {z : ℂ} (hz : 0 < z.im) :
    HasSum (fun n : ℤ => 1 / (z + n) ^ 2) ((Real.pi / sin (Real.pi * z)) ^ 2) := by
  have hs : Summable fun n : ℤ => 1 / (z + n) ^ 2 := by
    refine (summable_inv_mul z z).congr fun n => ?_
    rw [one_div, pow_two]
  have h := iteratedDerivWithin_cot_pi_mul_eq_mul_tsum_div_pow (k := 1) le_rfl (z := z) hz
  have hopen : IsOpen UpperHalfPlane.upperHalfPlaneSet := UpperHalfPlane.isOpen_upperHalfPlaneSet
  have hmem : z ∈ UpperHalfPlane.upperHalfPlaneSet := hz
  have hcompl : z ∈ integerComplement := by
    have := UpperHalfPlane.coe_mem_integerComplement ⟨z, hz⟩
    simpa using this
  have hsin := sin_pi_mul_ne_zero hcompl
  rw [iteratedDerivWithin_one, derivWithin_of_isOpen hopen hmem] at h
  have hd : HasDerivAt (fun x : ℂ => (Real.pi : ℂ) * cot (Real.pi * x)) (-(Real.pi / sin (Real.pi * z)) ^ 2) z := by
    have hlin : HasDerivAt (fun x : ℂ => (Real.pi : ℂ) * x) (Real.pi : ℂ) z := by
      simpa using (hasDerivAt_id z).const_mul (Real.pi : ℂ)
    have hcs := (((hasDerivAt_cos _).comp z hlin).div ((hasDerivAt_sin _).comp z hlin) hsin).const_mul (Real.pi : ℂ)
    refine hcs.congr_deriv ?_
    have hp : sin (Real.pi * z) ^ 2 + cos (Real.pi * z) ^ 2 = 1 := sin_sq_add_cos_sq _
    simp only [Function.comp_apply]
    field_simp
    linear_combination (-(1 : ℂ)) * hp
  rw [hd.deriv] at h
  simp only [pow_one, Nat.factorial_one, Nat.cast_one, mul_one] at h
  have : ∑' n : ℤ, 1 / (z + n) ^ 2 = (Real.pi / sin (Real.pi * z)) ^ 2 := by
    linear_combination h
  rw [← this]
  exact hs.hasSum

end Verif.HubbardAtom
