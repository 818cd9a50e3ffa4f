import Verif.Bubble.Model
import Verif.Fourier.Props
import Verif.Dyson.Model
import Mathlib.Tactic.Module

/-!
# C07 - C10: particle-hole bubbles
-/

noncomputable section

namespace Verif.Bubble

open Complex Verif.Parallel Verif.Fourier

variable {d : ℕ} {n : Fin d → ℕ} [∀ i, NeZero (n i)] {o : Type*} [Fintype o] [DecidableEq o]

set_option linter.unusedSectionVars false

/-! ## C07 -/

/-- convolution theorem: transform of `f(r) g(-r)` -/
theorem rToK_product (f g : Lat n → ℂ) (q : Lat n) :
    rToK (fun r => kToR f r * kToR g (-r)) q
      = (∑ k, f k * g (k - q)) / Fintype.card (Lat n) := by
  have hN := card_ne_zero' (n := n)
  simp only [rToK, fftw_one, kToR, fftw_neg_one, smul_eq_mul]
  have e : ∀ r : Lat n, ker r q * ((Fintype.card (Lat n) : ℂ)⁻¹ * (∑ k, ker (-k) r * f k)
      * ((Fintype.card (Lat n) : ℂ)⁻¹ * ∑ p, ker (-p) (-r) * g p))
      = ((Fintype.card (Lat n) : ℂ)⁻¹ * (Fintype.card (Lat n) : ℂ)⁻¹)
        * ∑ k, ∑ p, ker r (q - k + p) * (f k * g p) := by
    intro r
    rw [show ker r q * ((Fintype.card (Lat n) : ℂ)⁻¹ * (∑ k, ker (-k) r * f k)
      * ((Fintype.card (Lat n) : ℂ)⁻¹ * ∑ p, ker (-p) (-r) * g p))
      = ((Fintype.card (Lat n) : ℂ)⁻¹ * (Fintype.card (Lat n) : ℂ)⁻¹)
        * (ker r q * ((∑ k, ker (-k) r * f k) * ∑ p, ker (-p) (-r) * g p)) by ring,
      Finset.sum_mul_sum, Finset.mul_sum]
    congr 1
    refine Finset.sum_congr rfl fun k _ => ?_
    rw [Finset.mul_sum]
    refine Finset.sum_congr rfl fun p _ => ?_
    rw [ker_add_right, sub_eq_add_neg, ker_add_right, ker_neg_neg, ker_comm (-k) r, ker_comm p r]
    ring
  simp only [e, ← Finset.mul_sum]
  have s1 : (∑ r : Lat n, ∑ k, ∑ p, ker r (q - k + p) * (f k * g p))
      = ∑ k, (Fintype.card (Lat n) : ℂ) * (f k * g (k - q)) := by
    rw [Finset.sum_comm]
    refine Finset.sum_congr rfl fun k _ => ?_
    rw [Finset.sum_comm]
    have : ∀ p, (∑ r : Lat n, ker r (q - k + p) * (f k * g p))
        = if p = k - q then (Fintype.card (Lat n) : ℂ) * (f k * g p) else 0 := by
      intro p
      rw [← Finset.sum_mul, sum_ker]
      have : q - k + p = 0 ↔ p = k - q := by
        constructor
        · intro h
          have : p = -(q - k) := by rw [← add_eq_zero_iff_eq_neg', h]
          rw [this]; abel
        · intro h; rw [h]; abel
      simp only [this]
      split_ifs <;> simp
    simp only [this]
    simp
  rw [s1, ← Finset.mul_sum]
  field_simp

/-- C07: the bubble computed through real space equals the Brillouin zone sum, at every frequency pair of
the mesh and every momentum, for any number of ranks. -/
theorem C07_real_space_bubble (r1 r2 r3 : ℕ) (h1 : 0 < r1) (h2 : 0 < r2) (h3 : 0 < r3) (beta : ℂ)
    (numesh : List ℤ) (hnu : numesh.Nodup) (rmesh : List (Lat n)) (hr : rmesh.Nodup)
    (hrall : ∀ r, r ∈ rmesh) (wn : List (ℤ × ℤ)) (hwn : wn.Nodup) (g : G n o)
    (w nu : ℤ) (hp : (w, nu) ∈ wn) (hin : nu ∈ numesh) (hin' : nu + w ∈ numesh) (q : Lat n) :
    chi0qFromChi0r r3 wn (chi0rFromGr r2 beta rmesh (fourierWkToWr r1 numesh g)) (w, nu) q
      = chi0nFromGwk beta g w q nu := by
  rw [chi0qFromChi0r, C02_distributedAssign r3 h3 _ hwn, if_pos hp]
  have e : (fun r => chi0rFromGr r2 beta rmesh (fourierWkToWr r1 numesh g) r (w, nu).1 (w, nu).2)
      = fun r => chi0rPoint beta (fourierWkToWr r1 numesh g) r w nu := by
    funext r
    rw [chi0rFromGr, C02_distributedAssign r2 h2 _ hr, if_pos (hrall r)]
  rw [e]
  have comp : ∀ (a b c d : o), rToK (fun r => chi0rPoint beta (fourierWkToWr r1 numesh g) r w nu) q a b c d
      = -beta * rToK (fun r => kToR (fun k => g nu k d a) r * kToR (fun k => g (nu + w) k b c) (-r)) q := by
    intro a b c d
    simp only [rToK, fftw_one, Finset.sum_apply, Pi.smul_apply, smul_eq_mul, Finset.mul_sum]
    refine Finset.sum_congr rfl fun r _ => ?_
    have k1 : ∀ (m : ℤ) (r : Lat n) (x y : o), m ∈ numesh → fourierWkToWr r1 numesh g m r x y
        = kToR (fun k => g m k x y) r := by
      intro m r x y hm
      rw [fourierWkToWr, C02_distributedAssign r1 h1 _ hnu, if_pos hm]
      simp only [kToR, fftw_neg_one, Pi.smul_apply, Finset.sum_apply]
    rw [chi0rPoint, k1 _ _ _ _ hin, k1 _ _ _ _ hin']
    ring
  funext a b c d
  rw [comp, rToK_product, chi0nFromGwk, Finset.sum_neg_distrib]
  ring

/-- C07: the three real space routines agree. -/
theorem C07_routines_agree (ranks : ℕ) (h1 : 0 < ranks) (beta : ℂ) (rmesh : List (Lat n))
    (hr : rmesh.Nodup) (g : G n o) (r : Lat n) (hm : r ∈ rmesh) (w nu : ℤ) :
    chi0rFromGr ranks beta rmesh g r w nu = chi0rFromGrNompi beta rmesh g r w nu ∧
    chi0rAtW ranks beta rmesh g w r nu = chi0rFromGr ranks beta rmesh g r w nu := by
  have e : chi0rFromGrNompi beta rmesh g r w nu = chi0rPoint beta g r w nu := by
    have h := congrFun (congrFun (C02_distributedAssign 1 Nat.one_pos rmesh hr
      (fun r => chi0rPoint beta g r) r) w) nu
    rw [if_pos hm] at h
    rw [← h]
    have : mpiView rmesh 1 0 = rmesh := by
      have := C01_mpiView_concat rmesh 1 Nat.one_pos
      simpa using this
    simp only [chi0rFromGrNompi, distributedAssign, allReduce, Finset.sum_range_one, this]
  rw [e, chi0rFromGr, C02_distributedAssign ranks h1 _ hr, if_pos hm, chi0rAtW,
    C02_distributedAssign ranks h1 _ hr, if_pos hm]
  exact ⟨rfl, rfl⟩

/-- the hypotheses of C07 are met by a 2 x 3 lattice -/
example : ∃ rmesh : List (Lat (![2, 3] : Fin 2 → ℕ)), rmesh.Nodup ∧ (∀ r, r ∈ rmesh) := by
  have : ∀ i : Fin 2, NeZero ((![2, 3] : Fin 2 → ℕ) i) := by
    intro i; fin_cases i <;> exact ⟨by simp⟩
  exact ⟨Finset.univ.toList, Finset.nodup_toList _, fun r => Finset.mem_toList.2 (Finset.mem_univ r)⟩

/-! ## C08 -/

/-- lattice Green's function of `e_k` and `Σ(ν)` (Dyson equation) -/
def dysonG (mu : ℂ) (iv : ℤ → ℂ) (e : Lat n → Matrix o o ℂ) (sigma : ℤ → Matrix o o ℂ) : G n o :=
  fun nu k => (((iv nu + mu) • (1 : Matrix o o ℂ) - e k - sigma nu)⁻¹ : Matrix o o ℂ)

/-- C08 at zero bosonic frequency. -/
theorem C08_bubble_from_dispersion_partial (beta mu : ℂ) (iv : ℤ → ℂ) (e : Lat n → Matrix o o ℂ)
    (sigma : ℤ → Matrix o o ℂ) (q : Lat n) (nu : ℤ) :
    chi0nFromEkSigma beta mu iv e sigma 0 q nu = chi0nFromGwk beta (dysonG mu iv e sigma) 0 q nu := by
  funext a b c d
  simp only [chi0nFromEkSigma, chi0nFromGwk, dysonG, add_zero]

/-- C08 fails at the first bosonic frequency: one orbital, one momentum, no self energy, `β = π`, `ν = i`,
`ν + ω = 3i`. -/
theorem C08_bubble_from_dispersion_violated :
    ∃ (e : Lat (fun _ : Fin 1 => 1) → Matrix (Fin 1) (Fin 1) ℂ) (sigma : ℤ → Matrix (Fin 1) (Fin 1) ℂ),
      chi0nFromEkSigma Real.pi 0 (matsubara .fermion Real.pi) e sigma 1 0 0
        ≠ chi0nFromGwk Real.pi (dysonG 0 (matsubara .fermion Real.pi) e sigma) 1 0 0 := by
  refine ⟨fun _ => 0, fun _ => 0, ?_⟩
  have hpi : (Real.pi : ℂ) ≠ 0 := by exact_mod_cast Real.pi_ne_zero
  have v0 : matsubara .fermion Real.pi 0 = I := by simp [matsubara, hpi]
  have v1 : matsubara .fermion Real.pi 1 = 3 * I := by
    simp only [matsubara]
    field_simp
    push_cast
    ring
  have inv1 : ∀ x : ℂ, x ≠ 0 → (x • (1 : Matrix (Fin 1) (Fin 1) ℂ))⁻¹ 0 0 = x⁻¹ := by
    intro x hx
    rw [Matrix.inv_eq_right_inv (B := x⁻¹ • 1)]
    · simp
    · rw [Matrix.smul_mul, Matrix.mul_smul, Matrix.mul_one, smul_smul, mul_inv_cancel₀ hx, one_smul]
  intro h
  have h0 := congrFun (congrFun (congrFun (congrFun h 0) 0) 0) 0
  simp only [chi0nFromEkSigma, chi0nFromGwk, dysonG, zero_add, sub_zero, add_zero, v0, v1,
    Finset.sum_const, Finset.card_univ] at h0
  rw [inv1 I I_ne_zero, inv1 (3 * I) (by simp)] at h0
  simp only [Fintype.card_unique, one_smul] at h0
  have h1 : (-(I⁻¹ * I⁻¹) : ℂ) = -(I⁻¹ * (3 * I)⁻¹) := by
    have := mul_right_cancel₀ (b := (Real.pi : ℂ) / (1 : ℕ)) (by simp [hpi]) h0
    exact this
  have h2 := congrArg Complex.re h1
  simp [Complex.inv_re, Complex.mul_re] at h2

/-! ## C09 -/

/-- C09: symmetry of the imaginary time bubble on every mesh point. -/
theorem C09_symmetry (ranks L : ℕ) (h1 : 0 < ranks) (rmesh : List (Lat n)) (hr : rmesh.Nodup)
    (hall : ∀ r, r ∈ rmesh) (g : ℕ → Lat n → o → o → ℂ) (t : ℕ) (ht : t ≤ L) (r : Lat n) (a b c d : o) :
    chi0tr ranks L rmesh g (-r) (L - t) a b c d = chi0tr ranks L rmesh g r t c d a b := by
  simp only [chi0tr]
  rw [C02_distributedAssign ranks h1 _ hr, if_pos (hall _), C02_distributedAssign ranks h1 _ hr,
    if_pos (hall _)]
  simp only [chi0tPoint, neg_neg, Nat.sub_sub_self ht]
  ring

/-- C09: explicit value. -/
theorem C09_value (ranks L : ℕ) (h1 : 0 < ranks) (rmesh : List (Lat n)) (hr : rmesh.Nodup)
    (hall : ∀ r, r ∈ rmesh) (g : ℕ → Lat n → o → o → ℂ) (t : ℕ) (r : Lat n) (a b c d : o) :
    chi0tr ranks L rmesh g r t a b c d = g t r d a * g (L - t) (-r) b c := by
  rw [chi0tr, C02_distributedAssign ranks h1 _ hr, if_pos (hall _)]
  rfl

/-! ## C10 -/

variable {E : Type*} [AddCommGroup E] [Module ℂ E]

/-- C10: exact for data affine in `τ = β t / L`: the integral of `A + τ B` over `[0, β]`. -/
theorem C10_affine_exact (beta : ℂ) (L : ℕ) (hL : 0 < L) (A B : E) :
    trapz beta L (fun t => A + (beta * t / L) • B) = beta • A + (beta ^ 2 / 2) • B := by
  have hL0 : (L : ℂ) ≠ 0 := by exact_mod_cast hL.ne'
  have s : (∑ t ∈ Finset.range (L + 1), (t : ℂ)) = L * (L + 1) / 2 := by
    have := Finset.sum_range_id_mul_two (L + 1)
    have h2 : ((∑ t ∈ Finset.range (L + 1), t : ℕ) : ℂ) * 2 = (L + 1) * L := by
      exact_mod_cast this
    push_cast at h2
    rw [eq_div_iff (by norm_num), h2]; ring
  have s2 : (∑ t ∈ Finset.range (L + 1), (beta * (t : ℂ) / L)) = beta * (L + 1) / 2 := by
    have : ∀ t : ℕ, beta * (t : ℂ) / L = beta / L * t := fun t => by ring
    simp only [this, ← Finset.mul_sum, s]
    field_simp
  simp only [trapz, Finset.sum_add_distrib, Finset.sum_const, Finset.card_range, ← Finset.sum_smul, s2]
  have hn : ((L + 1 : ℕ) • A) = ((L : ℂ) + 1) • A := by
    rw [← Nat.cast_smul_eq_nsmul ℂ]; push_cast; rfl
  rw [hn]
  have e0 : beta * ((0 : ℕ) : ℂ) / L = 0 := by simp
  have eL : beta * (L : ℂ) / L = beta := by field_simp
  rw [e0, eL]
  have : ((beta / L : ℂ) • ((((L : ℂ) + 1) • A + (beta * (L + 1) / 2) • B)
      - (1 / 2 : ℂ) • (A + (0 : ℂ) • B) - (1 / 2 : ℂ) • (A + beta • B)))
      = (beta / L * L) • A + (beta / L * L * (beta / 2)) • B := by module
  rw [this, div_mul_cancel₀ _ hL0]
  congr 2
  ring

/-- C10: weights sum to `β`. -/
theorem C10_constant (beta : ℂ) (L : ℕ) (hL : 0 < L) (A : E) : trapz beta L (fun _ => A) = beta • A := by
  have := C10_affine_exact beta L hL A (0 : E)
  simpa using this

/-- C10: linearity. -/
theorem C10_linear (beta : ℂ) (L : ℕ) (x y : ℂ) (f g : ℕ → E) :
    trapz beta L (fun t => x • f t + y • g t) = x • trapz beta L f + y • trapz beta L g := by
  simp only [trapz, Finset.sum_add_distrib, ← Finset.smul_sum]
  module

/-- C10: time reflection. -/
theorem C10_reflection (beta : ℂ) (L : ℕ) (f : ℕ → E) :
    trapz beta L (fun t => f (L - t)) = trapz beta L f := by
  have h : (∑ t ∈ Finset.range (L + 1), f (L - t)) = ∑ t ∈ Finset.range (L + 1), f t :=
    Finset.sum_range_reflect f (L + 1)
  simp only [trapz, h, Nat.sub_zero, Nat.sub_self]
  congr 1
  abel

/-- C10: the one-step routine equals the two-step one, and inherits the symmetry
`χ(r)_{abcd} = χ(-r)_{cdab}`. -/
theorem C10_static_bubble (r1 r2 r3 L : ℕ) (h1 : 0 < r1) (h2 : 0 < r2) (h3 : 0 < r3) (beta : ℂ)
    (rmesh : List (Lat n)) (hr : rmesh.Nodup) (hall : ∀ r, r ∈ rmesh) (g : ℕ → Lat n → o → o → ℂ)
    (r : Lat n) :
    chi0W0r r1 beta L rmesh g r = chiW0rFromChiTr r2 beta L rmesh (chi0tr r3 L rmesh g) r ∧
    ∀ a b c d, chi0W0r r1 beta L rmesh g r a b c d = chi0W0r r1 beta L rmesh g (-r) c d a b := by
  constructor
  · rw [chi0W0r, C02_distributedAssign r1 h1 _ hr, if_pos (hall _), chiW0rFromChiTr,
      C02_distributedAssign r2 h2 _ hr, if_pos (hall _)]
    congr 1
    rw [chi0tr, C02_distributedAssign r3 h3 _ hr, if_pos (hall _)]
  · intro a b c d
    simp only [chi0W0r]
    rw [C02_distributedAssign r1 h1 _ hr, if_pos (hall _), C02_distributedAssign r1 h1 _ hr,
      if_pos (hall _)]
    have comp : ∀ (r : Lat n) (a b c d : o), trapz beta L (chi0tPoint L g r) a b c d
        = trapz beta L (fun t => chi0tPoint L g r t a b c d) := by
      intro r a b c d
      simp only [trapz, Pi.smul_apply, Pi.sub_apply, Finset.sum_apply]
    rw [comp, comp, ← C10_reflection]
    simp only [trapz]
    have : ∀ t ≤ L, chi0tPoint L g r (L - t) a b c d = chi0tPoint L g (-r) t c d a b := by
      intro t ht
      simp only [chi0tPoint, neg_neg, Nat.sub_sub_self ht]
      ring
    rw [Finset.sum_congr rfl fun t ht => this t (by have := Finset.mem_range.1 ht; omega),
      this 0 (Nat.zero_le _), this L le_rfl]

end Verif.Bubble
