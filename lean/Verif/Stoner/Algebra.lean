import Verif.HfResponse.ModesProps
import Verif.Gw.Screening
import Verif.Rpa.Props

/-!
# C106: static response and the Stoner criterion, matrices

`form chi` is the susceptibility as a quadratic form: rows are the pairs `(a, b)`, columns the pairs `(d, c)` of the adjoint
operator; `coupling U` is the interaction between such pairs.
-/

set_option linter.unusedSectionVars false

noncomputable section

namespace Verif.Stoner

open Matrix Verif.Rpa
open scoped ComplexOrder

variable {o : Type*} [Fintype o] [DecidableEq o] {I : Type*} [Fintype I] [DecidableEq I]

/-- a susceptibility as a form on pairs of orbitals -/
def form (chi : T4 o ℂ) : Matrix (o × o) (o × o) ℂ := Matrix.of fun p q => chi p.1 p.2 q.2 q.1

/-- an interaction as a form on pairs of orbitals -/
def coupling (U : T4 o ℂ) : Matrix (o × o) (o × o) ℂ := Matrix.of fun p q => U p.2 p.1 q.1 q.2

theorem coupling_isHermitian (U : T4 o ℂ) : (coupling U).IsHermitian ↔ ∀ a b c d, star (U a b c d) = U d c b a := by
  constructor
  · intro h a b c d
    have := congrFun (congrFun h (c, d)) (b, a)
    simpa [coupling] using this
  · intro h
    ext ⟨a, b⟩ ⟨c, d⟩
    rw [conjTranspose_apply]
    exact h d c a b

theorem form_mul_coupling (chi0 U : T4 o ℂ) : pairMat chi0 * pairMat U = form chi0 * coupling U := by
  ext p q
  rw [Matrix.mul_apply, Matrix.mul_apply]
  exact Fintype.sum_equiv (Equiv.prodComm o o) _ _ fun x => rfl

theorem form_rpaPoint (chi0 U : T4 o ℂ) : form (rpaPoint chi0 U) = (1 - form chi0 * coupling U)⁻¹ * form chi0 := by
  ext p q
  rw [← form_mul_coupling]
  simp only [form, rpaPoint, matTensor, Matrix.of_apply, Matrix.mul_apply, pairMat]

/-- eigenvalues of the product of a semidefinite and a hermitian matrix -/
theorem roots_real {A B : Matrix I I ℂ} (hA : A.PosSemidef) (hB : B.IsHermitian) :
    ∀ z ∈ (A * B).charpoly.roots, z.im = 0 := by
  obtain ⟨R, rfl⟩ := Gw.exists_root hA
  have hN : (R * B * Rᴴ).IsHermitian := Matrix.isHermitian_mul_mul_conjTranspose R hB
  intro z hz
  rw [Matrix.mul_assoc, Matrix.charpoly_mul_comm, hN.roots_charpoly_eq_eigenvalues] at hz
  obtain ⟨i, -, rfl⟩ := Multiset.mem_map.1 hz
  exact Complex.ofReal_im _

/-- stable: the response is finite and not negative -/
theorem stable {A B : Matrix I I ℂ} (hA : A.PosSemidef) (hB : B.IsHermitian)
    (hr : ∀ z ∈ (A * B).charpoly.roots, z.re < 1) :
    IsUnit (1 - A * B).det ∧ ((1 - A * B)⁻¹ * A).PosSemidef := by
  obtain ⟨R, rfl⟩ := Gw.exists_root hA
  have hN : (R * B * Rᴴ).IsHermitian := Matrix.isHermitian_mul_mul_conjTranspose R hB
  have hpos : (1 - R * B * Rᴴ).PosDef := by
    rw [HfResponse.one_sub_posDef hN]
    intro i
    have := hr (hN.eigenvalues i : ℂ) (by
      rw [Matrix.mul_assoc, Matrix.charpoly_mul_comm, hN.roots_charpoly_eq_eigenvalues]
      exact Multiset.mem_map.2 ⟨i, by simp, rfl⟩)
    simpa using this
  have hu : IsUnit (1 - R * B * Rᴴ).det := (Matrix.isUnit_iff_isUnit_det _).1 hpos.isUnit
  have hu' : IsUnit (1 - Rᴴ * R * B).det := by
    have : (1 - Rᴴ * R * B).det = (1 - R * B * Rᴴ).det := by
      rw [Matrix.mul_assoc, Matrix.det_one_sub_mul_comm]
    rwa [this]
  refine ⟨hu', ?_⟩
  have e : (1 - Rᴴ * R * B)⁻¹ * (Rᴴ * R) = Rᴴ * (1 - R * B * Rᴴ)⁻¹ * R := by
    have h1 : (1 - Rᴴ * R * B) * (Rᴴ * (1 - R * B * Rᴴ)⁻¹ * R) = Rᴴ * R := by
      have : (1 - Rᴴ * R * B) * (Rᴴ * (1 - R * B * Rᴴ)⁻¹ * R) = Rᴴ * ((1 - R * B * Rᴴ) * (1 - R * B * Rᴴ)⁻¹) * R := by
        noncomm_ring
      rw [this, Matrix.mul_nonsing_inv _ hu, Matrix.mul_one]
    have h2 := congrArg (fun M => (1 - Rᴴ * R * B)⁻¹ * M) h1
    rw [← h2, ← Matrix.mul_assoc, Matrix.nonsing_inv_mul _ hu', Matrix.one_mul]
  rw [e]
  exact hpos.inv.posSemidef.conjTranspose_mul_mul_same R

/-- with a definite bare response the criterion is sharp -/
theorem stable_iff {A B : Matrix I I ℂ} (hA : A.PosDef) (hB : B.IsHermitian) :
    (∀ z ∈ (A * B).charpoly.roots, z.re < 1) ↔ ((1 - A * B)⁻¹ * A).PosDef := by
  rw [(HfResponse.posDef_mul_hermitian hA hB).2]
  have hAu : IsUnit A.det := (Matrix.isUnit_iff_isUnit_det _).1 hA.isUnit
  by_cases hu : IsUnit (1 - A * B).det
  · have hX : IsUnit ((1 - A * B)⁻¹ * A) := by
      rw [Matrix.isUnit_iff_isUnit_det, Matrix.det_mul]
      exact (Matrix.isUnit_nonsing_inv_det _ hu).mul hAu
    have hXi : ((1 - A * B)⁻¹ * A)⁻¹ = A⁻¹ * (1 - A * B) := by
      rw [Matrix.mul_inv_rev, Matrix.nonsing_inv_nonsing_inv _ hu]
    have e : A - A * B * A = Aᴴ * ((1 - A * B)⁻¹ * A)⁻¹ * A := by
      rw [hXi, hA.isHermitian.eq, ← Matrix.mul_assoc, Matrix.mul_nonsing_inv _ hAu, Matrix.one_mul, Matrix.sub_mul, Matrix.one_mul]
    rw [e]
    refine (Matrix.IsUnit.posDef_star_left_conjugate_iff hA.isUnit).trans ⟨fun h => ?_, fun h => h.inv⟩
    have := h.inv
    rwa [Matrix.nonsing_inv_nonsing_inv _ ((Matrix.isUnit_iff_isUnit_det _).1 hX)] at this
  · constructor
    · intro h
      exfalso
      apply hu
      have h1 := (Matrix.isUnit_iff_isUnit_det _).1 h.isUnit
      have e : A - A * B * A = (1 - A * B) * A := by rw [Matrix.sub_mul, Matrix.one_mul]
      rw [e, Matrix.det_mul] at h1
      exact isUnit_of_mul_isUnit_left h1
    · intro h
      exfalso
      have h1 := (Matrix.isUnit_iff_isUnit_det _).1 h.isUnit
      rw [Matrix.det_mul, Matrix.nonsing_inv_apply_not_isUnit _ hu] at h1
      rcases isEmpty_or_nonempty I with hI | hI
      · exact hu (by simp)
      · simp at h1

/-- a stronger attraction gives a stronger response -/
theorem response_mono {A B B' : Matrix I I ℂ} (hA : A.PosSemidef) (hB : B.IsHermitian) (hB' : B'.IsHermitian)
    (hr : ∀ z ∈ (A * B).charpoly.roots, z.re < 1) (hr' : ∀ z ∈ (A * B').charpoly.roots, z.re < 1)
    (hle : (B' - B).PosSemidef) :
    ((1 - A * B')⁻¹ * A - (1 - A * B)⁻¹ * A).PosSemidef := by
  obtain ⟨hu, hX⟩ := stable hA hB hr
  obtain ⟨hu', hX'⟩ := stable hA hB' hr'
  set X := (1 - A * B)⁻¹ * A with hXd
  set X' := (1 - A * B')⁻¹ * A with hXd'
  have h1 : (1 - A * B) * X = A := by rw [hXd, ← Matrix.mul_assoc, Matrix.mul_nonsing_inv _ hu, Matrix.one_mul]
  have h2 : (1 - A * B') * X' = A := by rw [hXd', ← Matrix.mul_assoc, Matrix.mul_nonsing_inv _ hu', Matrix.one_mul]
  clear_value X X'
  have h3 : X' = X + X * (B' - B) * X' := by
    have : (1 - A * B) * X' = (1 - A * B) * (X + X * (B' - B) * X') := by
      have e1 : (1 - A * B) * (X + X * (B' - B) * X') = (1 - A * B) * X + (1 - A * B) * X * ((B' - B) * X') := by noncomm_ring
      rw [e1, h1]
      have e2 : (1 - A * B) * X' = (1 - A * B') * X' + A * ((B' - B) * X') := by noncomm_ring
      rw [e2, h2]
    have := congrArg (fun M => (1 - A * B)⁻¹ * M) this
    simpa only [← Matrix.mul_assoc, Matrix.nonsing_inv_mul _ hu, Matrix.one_mul] using this
  have h4 : X' = X + X' * (B' - B) * X := by
    have := congrArg Matrix.conjTranspose h3
    rw [conjTranspose_add, conjTranspose_mul, conjTranspose_mul, hX.isHermitian.eq, hX'.isHermitian.eq,
      hle.isHermitian.eq, ← Matrix.mul_assoc] at this
    exact this
  have e : X' - X = Xᴴ * (B' - B) * X + ((B' - B) * X)ᴴ * X' * ((B' - B) * X) := by
    rw [conjTranspose_mul, hX.isHermitian.eq, hle.isHermitian.eq]
    calc X' - X = X * (B' - B) * X' := by rw [sub_eq_iff_eq_add, add_comm]; exact h3
      _ = X * (B' - B) * (X + X' * (B' - B) * X) := by rw [← h4]
      _ = _ := by noncomm_ring
  rw [e]
  exact (hle.conjTranspose_mul_mul_same X).add (hX'.conjTranspose_mul_mul_same _)

theorem roots_smul {C : Matrix I I ℂ} {x z : ℂ} (hx : x ≠ 0) : z ∈ (x • C).charpoly.roots ↔ z / x ∈ C.charpoly.roots := by
  rw [HfResponse.mem_roots_iff, HfResponse.mem_roots_iff]
  refine exists_congr fun v => and_congr Iff.rfl ?_
  rw [Matrix.smul_mulVec]
  constructor
  · intro h
    rw [div_eq_inv_mul, mul_smul, ← h, smul_smul, inv_mul_cancel₀ hx, one_smul]
  · intro h
    rw [h, smul_smul, mul_div_cancel₀ _ hx]

theorem roots_zero {z : ℂ} (hz : z ∈ (0 : Matrix I I ℂ).charpoly.roots) : z = 0 := by
  obtain ⟨v, hv, h⟩ := (HfResponse.mem_roots_iff _ _).1 hz
  rw [Matrix.zero_mulVec] at h
  rcases smul_eq_zero.1 h.symm with h | h
  · exact h
  · exact absurd h hv

theorem singular_of_root {C : Matrix I I ℂ} (h : (1 : ℂ) ∈ C.charpoly.roots) : (1 - C).det = 0 := by
  rw [HfResponse.det_one_sub, Multiset.prod_eq_zero_iff, Multiset.mem_map]
  exact ⟨1, h, sub_self _⟩

/-- the first instability when the interaction is switched on -/
theorem critical {A B : Matrix I I ℂ} (hA : A.PosSemidef) (hB : B.IsHermitian) :
    (∀ x : ℝ, 0 ≤ x → IsUnit (1 - A * ((x : ℂ) • B)).det ∧ ((1 - A * ((x : ℂ) • B))⁻¹ * A).PosSemidef) ∨
    ∃ xc : ℝ, 0 < xc ∧ (1 - A * ((xc : ℂ) • B)).det = 0 ∧
      (∀ x : ℝ, 0 ≤ x → x < xc → IsUnit (1 - A * ((x : ℂ) • B)).det ∧ ((1 - A * ((x : ℂ) • B))⁻¹ * A).PosSemidef) ∧
      (A.PosDef → ∀ x : ℝ, xc < x → ¬ ((1 - A * ((x : ℂ) • B))⁻¹ * A).PosDef) := by
  have hreal := roots_real hA hB
  have hherm : ∀ x : ℝ, ((x : ℂ) • B).IsHermitian := fun x => by
    rw [Matrix.IsHermitian, conjTranspose_smul, hB.eq]
    simp
  have hscale : ∀ x : ℝ, 0 ≤ x → (∀ z ∈ (A * B).charpoly.roots, x * z.re < 1) →
      ∀ z ∈ (A * ((x : ℂ) • B)).charpoly.roots, z.re < 1 := by
    intro x hx h z hz
    rw [Matrix.mul_smul] at hz
    rcases hx.eq_or_lt with rfl | hx
    · rw [Complex.ofReal_zero, zero_smul] at hz
      rw [roots_zero hz]
      simp
    · have hx0 : (x : ℂ) ≠ 0 := by exact_mod_cast hx.ne'
      have := h _ ((roots_smul hx0).1 hz)
      rwa [Complex.div_ofReal_re, mul_div_cancel₀ _ hx.ne'] at this
  by_cases hpos : ∃ z ∈ (A * B).charpoly.roots, 0 < z.re
  · right
    obtain ⟨z0, hz0, hp0⟩ := hpos
    have hne : (A * B).charpoly.roots.toFinset.Nonempty := ⟨z0, by simpa using hz0⟩
    obtain ⟨zm, hzm, hmax⟩ := Finset.exists_max_image _ (fun z : ℂ => z.re) hne
    have hzm' : zm ∈ (A * B).charpoly.roots := by simpa using hzm
    have hpm : 0 < zm.re := hp0.trans_le (hmax z0 (by simpa using hz0))
    have hzre : zm = (zm.re : ℂ) := Complex.ext (by simp) (by simpa using hreal zm hzm')
    have hc0 : ((1 / zm.re : ℝ) : ℂ) ≠ 0 := by exact_mod_cast (one_div_pos.2 hpm).ne'
    refine ⟨1 / zm.re, one_div_pos.2 hpm, ?_, fun x hx hlt => ?_, fun hAd x hlt hcon => ?_⟩
    · refine singular_of_root ?_
      rw [Matrix.mul_smul, roots_smul hc0]
      have : (1 : ℂ) / ((1 / zm.re : ℝ) : ℂ) = zm := by
        rw [Complex.ofReal_div, Complex.ofReal_one, one_div_one_div, ← hzre]
      rw [this]
      exact hzm'
    · refine stable hA (hherm x) (hscale x hx fun z hz => ?_)
      have h1 := hmax z (by simpa using hz)
      calc x * z.re ≤ x * zm.re := mul_le_mul_of_nonneg_left h1 hx
        _ < 1 / zm.re * zm.re := mul_lt_mul_of_pos_right hlt hpm
        _ = 1 := one_div_mul_cancel hpm.ne'
    · have hxp : 0 < x := (one_div_pos.2 hpm).trans hlt
      have hx0 : (x : ℂ) ≠ 0 := by exact_mod_cast hxp.ne'
      have h1 := (stable_iff hAd (hherm x)).2 hcon ((x : ℂ) * zm) (by
        rw [Matrix.mul_smul, roots_smul hx0, mul_div_cancel_left₀ _ hx0]
        exact hzm')
      rw [Complex.re_ofReal_mul] at h1
      have h2 : 1 / zm.re * zm.re < x * zm.re := mul_lt_mul_of_pos_right hlt hpm
      rw [one_div_mul_cancel hpm.ne'] at h2
      linarith
  · left
    push Not at hpos
    intro x hx
    refine stable hA (hherm x) (hscale x hx fun z hz => ?_)
    have := mul_nonpos_of_nonneg_of_nonpos hx (hpos z hz)
    linarith

end Verif.Stoner
