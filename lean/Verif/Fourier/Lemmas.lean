import Verif.Fourier.Model
import Mathlib.Algebra.BigOperators.Ring.Finset
import Mathlib.NumberTheory.LegendreSymbol.AddCharacter
import Mathlib.RingTheory.RootsOfUnity.Complex

/-!
# Orthogonality of the discrete Fourier kernels
-/

noncomputable section

namespace Verif.Fourier

open Complex

variable {d : ℕ} {n : Fin d → ℕ} [∀ i, NeZero (n i)]
variable {E : Type*} [AddCommGroup E] [Module ℂ E]

set_option linter.unusedSectionVars false

/-- kernel as product of additive characters -/
def ker (x y : Lat n) : ℂ := ∏ i, ZMod.stdAddChar (x i * y i)

theorem exp_eq_ker (x y : Lat n) :
    exp (2 * Real.pi * I * ∑ i, ((x i).val * (y i).val : ℂ) / n i) = ker x y := by
  rw [Finset.mul_sum, exp_sum, ker]
  refine Finset.prod_congr rfl fun i _ => ?_
  have h : x i * y i = (((x i).val * (y i).val : ℕ) : ℤ) := by
    push_cast
    rw [ZMod.natCast_zmod_val, ZMod.natCast_zmod_val]
  rw [h, ZMod.stdAddChar_coe]
  push_cast
  congr 1
  ring

theorem ker_comm (x y : Lat n) : ker x y = ker y x := by
  simp only [ker, mul_comm]

theorem ker_add_left (x x' y : Lat n) : ker (x + x') y = ker x y * ker x' y := by
  simp only [ker, Pi.add_apply, add_mul, AddChar.map_add_eq_mul, Finset.prod_mul_distrib]

theorem ker_zero_left (y : Lat n) : ker 0 y = 1 := by
  simp [ker]

theorem ker_add_right (x y y' : Lat n) : ker x (y + y') = ker x y * ker x y' := by
  rw [ker_comm, ker_add_left, ker_comm y, ker_comm y']

theorem ker_zero_right (x : Lat n) : ker x 0 = 1 := by rw [ker_comm, ker_zero_left]

theorem ker_mul_neg_left (x y : Lat n) : ker x y * ker (-x) y = 1 := by
  rw [← ker_add_left, add_neg_cancel, ker_zero_left]

theorem ker_neg_left (x y : Lat n) : ker (-x) y = (ker x y)⁻¹ :=
  eq_inv_of_mul_eq_one_right (ker_mul_neg_left x y)

theorem ker_neg_neg (x y : Lat n) : ker (-x) (-y) = ker x y := by
  simp [ker]

theorem ker_neg_right (x y : Lat n) : ker x (-y) = ker (-x) y := by
  rw [← ker_neg_neg, neg_neg]

theorem exp_neg_eq_ker (x y : Lat n) :
    exp ((-1 : ℤ) * (2 * Real.pi * I * ∑ i, ((x i).val * (y i).val : ℂ) / n i)) = ker (-x) y := by
  rw [ker_neg_left, ← exp_eq_ker, ← exp_neg]
  push_cast
  congr 1
  ring

/-- orthogonality -/
theorem sum_ker (y : Lat n) : ∑ x, ker x y = if y = 0 then (Fintype.card (Lat n) : ℂ) else 0 := by
  have h1 : (∑ x : Lat n, ker x y) = ∏ i, ∑ a : ZMod (n i), ZMod.stdAddChar (a * y i) := by
    rw [Finset.prod_univ_sum]
    simp only [Fintype.piFinset_univ, ker]
  rw [h1]
  have h2 : ∀ i, ∑ a : ZMod (n i), ZMod.stdAddChar (a * y i)
      = if y i = 0 then ((Fintype.card (ZMod (n i)) : ℕ) : ℂ) else 0 := by
    intro i
    have := AddChar.sum_mulShift (y i) (ZMod.isPrimitive_stdAddChar (n i))
    simpa using this
  simp only [h2]
  split_ifs with hy
  · subst hy
    simp [Fintype.card_pi]
  · obtain ⟨i, hi⟩ := Function.ne_iff.1 hy
    exact Finset.prod_eq_zero (Finset.mem_univ i) (if_neg hi)

theorem card_ne_zero' : (Fintype.card (Lat n) : ℂ) ≠ 0 := by
  exact_mod_cast Fintype.card_ne_zero

theorem fftw_one (g : Lat n → E) (y : Lat n) : fftw 1 g y = ∑ x, ker x y • g x := by
  simp only [fftw]
  refine Finset.sum_congr rfl fun x _ => ?_
  rw [← exp_eq_ker]
  norm_num

theorem fftw_neg_one (g : Lat n → E) (y : Lat n) : fftw (-1) g y = ∑ x, ker (-x) y • g x := by
  simp only [fftw]
  refine Finset.sum_congr rfl fun x _ => ?_
  rw [exp_neg_eq_ker]

theorem rToK_kToR (g : Lat n → E) : rToK (kToR g) = g := by
  funext k
  simp only [rToK, fftw_one, kToR, fftw_neg_one, Finset.smul_sum, smul_smul]
  rw [Finset.sum_comm]
  have : ∀ x, ∑ r, (ker r k * ((Fintype.card (Lat n) : ℂ)⁻¹ * ker (-x) r)) • g x
      = if x = k then g x else 0 := by
    intro x
    rw [← Finset.sum_smul]
    have e : ∀ r, ker r k * ((Fintype.card (Lat n) : ℂ)⁻¹ * ker (-x) r)
        = (Fintype.card (Lat n) : ℂ)⁻¹ * ker r (k - x) := by
      intro r
      rw [sub_eq_add_neg, ker_add_right, ker_comm r (-x)]; ring
    simp only [e, ← Finset.mul_sum, sum_ker, sub_eq_zero]
    by_cases hx : x = k
    · subst hx; rw [if_pos rfl, if_pos rfl, inv_mul_cancel₀ card_ne_zero', one_smul]
    · rw [if_neg (fun h => hx h.symm), if_neg hx]; simp
  simp only [this]
  simp

theorem kToR_rToK (g : Lat n → E) : kToR (rToK g) = g := by
  funext r
  simp only [rToK, fftw_one, kToR, fftw_neg_one, Finset.smul_sum, smul_smul]
  rw [Finset.sum_comm]
  have : ∀ x, ∑ k, ((Fintype.card (Lat n) : ℂ)⁻¹ * (ker (-k) r * ker x k)) • g x
      = if x = r then g x else 0 := by
    intro x
    rw [← Finset.sum_smul]
    have e : ∀ k, (Fintype.card (Lat n) : ℂ)⁻¹ * (ker (-k) r * ker x k)
        = (Fintype.card (Lat n) : ℂ)⁻¹ * ker k (x - r) := by
      intro k
      rw [sub_eq_add_neg, ker_add_right, ker_comm x k, ker_neg_right]; ring
    simp only [e, ← Finset.mul_sum, sum_ker, sub_eq_zero]
    by_cases hx : x = r
    · subst hx; rw [if_pos rfl, if_pos rfl, inv_mul_cancel₀ card_ne_zero', one_smul]
    · simp [hx]
  simp only [this]
  simp

/-! ## One dimension -/

/-- geometric orthogonality for the one dimensional transform -/
theorem sum_exp_range (L : ℕ) (hL : 0 < L) (m : ℤ) :
    ∑ t ∈ Finset.range L, exp (2 * Real.pi * I * (t * m / L)) = if (L : ℤ) ∣ m then (L : ℂ) else 0 := by
  have hL0 : (L : ℂ) ≠ 0 := by exact_mod_cast hL.ne'
  set z : ℂ := exp (2 * Real.pi * I * (m / L)) with hz
  have hterm : ∀ t : ℕ, exp (2 * Real.pi * I * (t * m / L)) = z ^ t := by
    intro t
    rw [hz, ← exp_nat_mul]; congr 1; ring
  simp only [hterm]
  have hone : z = 1 ↔ (L : ℤ) ∣ m := by
    rw [hz, exp_eq_one_iff]
    constructor
    · rintro ⟨k, hk⟩
      refine ⟨k, ?_⟩
      have h2 : (2 * Real.pi * I : ℂ) ≠ 0 := by simp [Real.pi_ne_zero]
      have : (m : ℂ) = L * k := by
        have h3 : (2 * Real.pi * I : ℂ) * (m / L) = (2 * Real.pi * I) * k := by rw [hk]; ring
        have h4 := mul_left_cancel₀ h2 h3
        field_simp at h4
        rw [h4]
      exact_mod_cast this
    · rintro ⟨k, rfl⟩
      refine ⟨k, ?_⟩
      push_cast
      field_simp
  split_ifs with h
  · rw [hone.2 h]; simp
  · have hz1 : z ≠ 1 := fun e => h (hone.1 e)
    have hzL : z ^ L = 1 := by
      rw [hz, ← exp_nat_mul, exp_eq_one_iff]
      exact ⟨m, by field_simp⟩
    rw [geom_sum_eq hz1, hzL]; simp

/-- one dimensional round trip -/
theorem fftw1_roundtrip (L : ℕ) (x : ℕ → ℂ) (j : ℕ) (hj : j < L) :
    fftw1 1 L (fun t => (1 / L : ℂ) * fftw1 (-1) L x t) j = x j := by
  have hL : 0 < L := by omega
  have hL0 : (L : ℂ) ≠ 0 := by exact_mod_cast hL.ne'
  simp only [fftw1, Finset.mul_sum]
  rw [Finset.sum_comm]
  have : ∀ s ∈ Finset.range L, ∑ t ∈ Finset.range L,
      exp ((1 : ℤ) * (2 * Real.pi * I * (t * j / L))) * ((1 / L : ℂ)
        * (exp ((-1 : ℤ) * (2 * Real.pi * I * (s * t / L))) * x s)) = if s = j then x s else 0 := by
    intro s hs
    have hs' := Finset.mem_range.1 hs
    have e : ∀ t : ℕ, exp ((1 : ℤ) * (2 * Real.pi * I * (t * j / L))) * ((1 / L : ℂ)
        * (exp ((-1 : ℤ) * (2 * Real.pi * I * (s * t / L))) * x s))
        = (exp (2 * Real.pi * I * (t * ((j : ℤ) - s : ℤ) / L))) * (x s / L) := by
      intro t
      have : exp (2 * Real.pi * I * (t * ((j : ℤ) - s : ℤ) / L))
          = exp ((1 : ℤ) * (2 * Real.pi * I * (t * j / L)))
            * exp ((-1 : ℤ) * (2 * Real.pi * I * (s * t / L))) := by
        rw [← exp_add]; congr 1; push_cast; ring
      rw [this]; ring
    simp only [e, ← Finset.sum_mul, sum_exp_range L hL]
    by_cases hsj : s = j
    · subst hsj; simp; field_simp
    · rw [if_neg, if_neg hsj, zero_mul]
      rintro ⟨k, hk⟩
      have : k = 0 := by
        by_contra hk0
        have h1 : (1 : ℤ) ≤ |k| := Int.one_le_abs hk0
        have h2 : |(j : ℤ) - s| < L := by rw [abs_lt]; omega
        rw [hk, abs_mul] at h2
        have : |(L : ℤ)| = L := abs_of_nonneg (by omega)
        rw [this] at h2
        nlinarith
      subst this
      omega
  rw [Finset.sum_congr rfl this]
  simp [hj]

end Verif.Fourier
