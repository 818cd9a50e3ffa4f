import Verif.Stoner.Props
import Verif.FitDlr.ThermalMatrix

/-!
# C106: Matsubara frequencies, windows, and the Hubbard model
-/

set_option linter.unusedSectionVars false

noncomputable section

namespace Verif.Stoner

open Matrix Verif.Rpa Verif.Parallel Verif.Fourier Verif.Bubble Verif.Lindhard
open scoped ComplexOrder Kronecker

variable {d : ℕ} {n : Fin d → ℕ} [∀ i, NeZero (n i)] {o : Type} [Fintype o] [DecidableEq o]
variable {P : Type*} [DecidableEq P]

/-! ## Bosonic frequencies -/

/-- the integrand for two poles is not negative -/
def pairWeight (beta x y t : ℝ) : ℝ :=
  (-(1 - fermi (x * beta)) * Real.exp (-x * t)) * (-(1 - fermi (y * beta)) * Real.exp (-y * (beta - t)))

theorem pairWeight_nonneg (beta x y t : ℝ) : 0 ≤ pairWeight beta x y t := by
  unfold pairWeight
  have h1 := (C20_fermi_bounds (x * beta)).2
  have h2 := (C20_fermi_bounds (y * beta)).2
  have : (-(1 - fermi (x * beta)) * Real.exp (-x * t)) * (-(1 - fermi (y * beta)) * Real.exp (-y * (beta - t)))
      = ((1 - fermi (x * beta)) * Real.exp (-x * t)) * ((1 - fermi (y * beta)) * Real.exp (-y * (beta - t))) := by ring
  rw [this]
  exact mul_nonneg (mul_nonneg (by linarith) (Real.exp_pos _).le) (mul_nonneg (by linarith) (Real.exp_pos _).le)

theorem pairFactor_zero (beta x y : ℝ) : pairFactor beta 0 x y = ((∫ t in (0 : ℝ)..beta, pairWeight beta x y t : ℝ) : ℂ) := by
  unfold pairFactor
  rw [← intervalIntegral.integral_ofReal]
  refine intervalIntegral.integral_congr fun t _ => ?_
  simp only [matsubara, freeTau, pairWeight]
  push_cast
  simp

theorem pairFactor_zero_nonneg {beta : ℝ} (hb : 0 ≤ beta) (x y : ℝ) : 0 ≤ pairFactor beta 0 x y := by
  rw [pairFactor_zero, Complex.zero_le_real]
  exact intervalIntegral.integral_nonneg hb fun t _ => pairWeight_nonneg beta x y t

theorem norm_pairFactor {beta : ℝ} (hb : 0 ≤ beta) (m : ℤ) (x y : ℝ) :
    ‖pairFactor beta m x y‖ ≤ (pairFactor beta 0 x y).re := by
  rw [pairFactor_zero, Complex.ofReal_re]
  refine (intervalIntegral.norm_integral_le_integral_norm hb).trans (le_of_eq ?_)
  refine intervalIntegral.integral_congr fun t _ => ?_
  have h1 : Complex.exp (matsubara .boson beta m * t) = Complex.exp ((2 * m * Real.pi / beta * t : ℝ) * Complex.I) := by
    congr 1
    simp only [matsubara]
    push_cast
    ring
  have h2 : freeTau beta t x * freeTau beta (beta - t) y = ((pairWeight beta x y t : ℝ) : ℂ) := by
    simp only [freeTau, pairWeight]
    push_cast
    ring
  simp only [h1, h2, norm_mul, Complex.norm_exp_ofReal_mul_I, one_mul, Complex.norm_real,
    Real.norm_of_nonneg (pairWeight_nonneg beta x y t)]

theorem form_imtimeRoute {ranks : ℕ} (hr : 0 < ranks) (beta : ℝ) {rmesh : List (Lat n)} (hnd : rmesh.Nodup)
    (hall : ∀ r, r ∈ rmesh) (p : Poles n o) (m : ℤ) (q : Lat n) :
    form (imtimeRoute ranks beta rmesh p m q) = (Fintype.card (Lat n) : ℂ)⁻¹ • ∑ k, ∑ l, ∑ l',
      pairFactor beta m (p.eps k l) (p.eps (k - q) l') • ((Matrix.of (p.res k l))ᵀ ⊗ₖ Matrix.of (p.res (k - q) l')) := by
  ext ⟨a, b⟩ ⟨d, c⟩
  simp only [form, Matrix.of_apply, imtimeRoute_eq hr beta hnd hall, Matrix.smul_apply, Matrix.sum_apply,
    Matrix.kroneckerMap_apply, Matrix.transpose_apply, smul_eq_mul]
  congr 1
  refine Finset.sum_congr rfl fun k _ => Finset.sum_congr rfl fun l _ => Finset.sum_congr rfl fun l' _ => ?_
  ring

/-- C106: for every Green's function with positive semidefinite residues the static bubble of the imaginary time route is
positive semidefinite at every momentum, and no response at a bosonic frequency exceeds it. -/
theorem C106_frequencies {ranks : ℕ} (hr : 0 < ranks) {beta : ℝ} (hb : 0 < beta) {rmesh : List (Lat n)} (hnd : rmesh.Nodup)
    (hall : ∀ r, r ∈ rmesh) (p : Poles n o) (hp : ∀ k l, (Matrix.of (p.res k l)).PosSemidef) (q : Lat n) :
    (form (imtimeRoute ranks beta rmesh p 0 q)).PosSemidef ∧
    ∀ (m : ℤ) (v : o × o → ℂ), ‖star v ⬝ᵥ (form (imtimeRoute ranks beta rmesh p m q) *ᵥ v)‖
      ≤ (star v ⬝ᵥ (form (imtimeRoute ranks beta rmesh p 0 q) *ᵥ v)).re := by
  have hK : ∀ k l l', ((Matrix.of (p.res k l))ᵀ ⊗ₖ Matrix.of (p.res (k - q) l')).PosSemidef :=
    fun k l l' => (hp k l).transpose.kronecker (hp (k - q) l')
  have hN : (0 : ℝ) ≤ (Fintype.card (Lat n) : ℝ)⁻¹ := by positivity
  have hcast : (Fintype.card (Lat n) : ℂ)⁻¹ = (((Fintype.card (Lat n) : ℝ)⁻¹ : ℝ) : ℂ) := by push_cast; rfl
  constructor
  · rw [form_imtimeRoute hr beta hnd hall]
    refine (Matrix.posSemidef_sum _ fun k _ => Matrix.posSemidef_sum _ fun l _ => Matrix.posSemidef_sum _ fun l' _ =>
      (hK k l l').smul (pairFactor_zero_nonneg hb.le _ _)).smul ?_
    rw [hcast, Complex.zero_le_real]
    exact hN
  · intro m v
    have hval : ∀ m : ℤ, star v ⬝ᵥ (form (imtimeRoute ranks beta rmesh p m q) *ᵥ v)
        = (((Fintype.card (Lat n) : ℝ)⁻¹ : ℝ) : ℂ) * ∑ k, ∑ l, ∑ l', pairFactor beta m (p.eps k l) (p.eps (k - q) l')
          * (star v ⬝ᵥ (((Matrix.of (p.res k l))ᵀ ⊗ₖ Matrix.of (p.res (k - q) l')) *ᵥ v)) := by
      intro m
      rw [form_imtimeRoute hr beta hnd hall, hcast, smul_mulVec, dotProduct_smul, smul_eq_mul]
      congr 1
      simp only [Matrix.sum_mulVec, dotProduct_sum, smul_mulVec, dotProduct_smul, smul_eq_mul]
    rw [hval, hval, norm_mul, Complex.norm_real, Real.norm_of_nonneg hN, Complex.re_ofReal_mul]
    refine mul_le_mul_of_nonneg_left ?_ hN
    simp only [Complex.re_sum]
    refine (norm_sum_le _ _).trans (Finset.sum_le_sum fun k _ => (norm_sum_le _ _).trans (Finset.sum_le_sum fun l _ =>
      (norm_sum_le _ _).trans (Finset.sum_le_sum fun l' _ => ?_)))
    set w := star v ⬝ᵥ (((Matrix.of (p.res k l))ᵀ ⊗ₖ Matrix.of (p.res (k - q) l')) *ᵥ v)
    have hw : 0 ≤ w := (hK k l l').dotProduct_mulVec_nonneg v
    have hw1 : 0 ≤ w.re := (Complex.nonneg_iff.1 hw).1
    have hw' : w = (w.re : ℂ) := Complex.ext (by simp) (by simpa using (Complex.nonneg_iff.1 hw).2.symm)
    clear_value w
    rw [hw', norm_mul, Complex.norm_real, Real.norm_of_nonneg hw1, Complex.re_mul_ofReal]
    exact mul_le_mul_of_nonneg_right (norm_pairFactor hb.le m _ _) hw1

/-- the bands of any dispersion have positive semidefinite residues -/
example (eig : Eig o) (mu : ℝ) (e : Lat n → Matrix o o ℂ) (k : Lat n) (l : o) :
    (Matrix.of ((Poles.bands eig mu e).res k l)).PosSemidef := by
  have : Matrix.of ((Poles.bands eig mu e).res k l)
      = Matrix.vecMulVec (fun a => (sys eig mu e k).2 a l) (star fun a => (sys eig mu e k).2 a l) := by
    ext a b
    rfl
  rw [this]
  exact Matrix.posSemidef_vecMulVec_self_star _

/-- and so are minus their Green's functions in imaginary time -/
example (eig : Eig o) (beta mu : ℝ) (e : Lat n → Matrix o o ℂ) (L : ℕ) (t : ℕ) (k : Lat n) :
    (-(Matrix.of ((Poles.bands eig mu e).time beta (beta * t / L) k))).PosSemidef := by
  have : -(Matrix.of ((Poles.bands eig mu e).time beta (beta * t / L) k))
      = ∑ l, (((1 - fermi ((sys eig mu e k).1 l * beta)) * Real.exp (-(sys eig mu e k).1 l * (beta * t / L)) : ℝ) : ℂ) •
        Matrix.vecMulVec (fun a => (sys eig mu e k).2 a l) (star fun a => (sys eig mu e k).2 a l) := by
    ext a b
    rw [Matrix.neg_apply, Matrix.sum_apply, Matrix.of_apply, Poles.time, ← Finset.sum_neg_distrib]
    refine Finset.sum_congr rfl fun l _ => ?_
    simp only [Poles.bands, freeTau, Matrix.smul_apply, Matrix.vecMulVec_apply, conjTranspose_apply, Pi.star_apply, smul_eq_mul]
    push_cast
    ring
  rw [this]
  refine Matrix.posSemidef_sum _ fun l _ => (Matrix.posSemidef_vecMulVec_self_star _).smul ?_
  rw [Complex.zero_le_real]
  have := (C20_fermi_bounds ((sys eig mu e k).1 l * beta)).2
  exact mul_nonneg (by linarith) (Real.exp_pos _).le

/-! ## Finite frequency windows -/

/-- one level -/
def oneLevel (x : ℝ) : Poles (fun _ : Fin 1 => 1) (Fin 1) where
  L := Unit
  eps _ _ := x
  res _ _ _ _ := 1

/-- C106 is violated for the static bubble summed over a finite window of fermionic frequencies: for a level farther from the
Fermi energy than the largest frequency of the window the result of `chi0q_sum_nu` is negative. -/
theorem C106_window_violated {ranks : ℕ} (hr : 0 < ranks) {beta : ℝ} (hb : 0 < beta) {mesh : List (ℤ × Lat (fun _ : Fin 1 => 1))}
    (hnd : mesh.Nodup) (hm : (0, 0) ∈ mesh) (x : ℝ) (hx : Real.pi / beta < x) :
    (Matrix.of ((oneLevel x).res 0 ())).PosSemidef ∧
    (imfreqRoute ranks beta mesh (oneLevel x) {-1, 0} 0 0 0 0 0 0).im = 0 ∧
    (imfreqRoute ranks beta mesh (oneLevel x) {-1, 0} 0 0 0 0 0 0).re < 0 := by
  refine ⟨?_, ?_⟩
  · have : Matrix.of ((oneLevel x).res 0 ()) = 1 := by
      ext i j
      rw [Subsingleton.elim i 0, Subsingleton.elim j 0]
      simp [oneLevel]
    rw [this]
    exact PosSemidef.one
  have hpi := Real.pi_pos
  set w := Real.pi / beta with hw
  have hw0 : 0 < w := div_pos hpi hb
  have h := C02_distributedAssign ranks hr mesh hnd (fun y : ℤ × Lat (fun _ : Fin 1 => 1) => fun a b c d =>
      (∑ nu : ({-1, 0} : Finset ℤ), chi0nFromGwk (beta : ℂ) ((oneLevel x).freq beta) y.1 y.2 nu.1 a b c d) / ((beta : ℂ) * beta)) (0, 0)
  have hval : imfreqRoute ranks beta mesh (oneLevel x) {-1, 0} 0 0 0 0 0 0
      = ((-(2 * (x ^ 2 - w ^ 2) / ((x ^ 2 + w ^ 2) ^ 2 * beta)) : ℝ) : ℂ) := by
    rw [imfreqRoute, Bse.chi0qSumNu, h, if_pos hm]
    have hs := Finset.sum_coe_sort ({-1, 0} : Finset ℤ)
      (fun nu => chi0nFromGwk (beta : ℂ) ((oneLevel x).freq beta) 0 0 nu 0 0 0 0)
    dsimp only at hs ⊢
    rw [hs, Finset.sum_pair (by decide)]
    have hcard : (Fintype.card (Lat (fun _ : Fin 1 => 1)) : ℂ) = 1 := by
      have : Fintype.card (Lat (fun _ : Fin 1 => 1)) = 1 := Fintype.card_unique
      rw [this]
      simp
    have hg : ∀ nu : ℤ, ∀ k, (oneLevel x).freq beta nu k 0 0 = 1 / (matsubara .fermion beta nu - x) := by
      intro nu k
      show ∑ _l : Unit, _ = _
      simp [oneLevel]
    have hm1 : matsubara .fermion beta (-1) = -(w * Complex.I) := by
      simp only [matsubara, hw]
      push_cast
      ring
    have hm0 : matsubara .fermion beta 0 = w * Complex.I := by
      simp only [matsubara, hw]
      push_cast
      ring
    simp only [chi0nFromGwk, Fintype.sum_unique, hg, hcard, add_zero, hm1, hm0]
    have hbc : (beta : ℂ) ≠ 0 := by exact_mod_cast hb.ne'
    have n1 : -((w : ℂ) * Complex.I) - x ≠ 0 := by
      intro h0
      have := congrArg Complex.im h0
      simp at this
      exact hw0.ne' this
    have n2 : (w : ℂ) * Complex.I - x ≠ 0 := by
      intro h0
      have := congrArg Complex.im h0
      simp at this
      exact hw0.ne' this
    have hI := Complex.I_sq
    have hprod : (-((w : ℂ) * Complex.I) - x) * ((w : ℂ) * Complex.I - x) = ((x ^ 2 + w ^ 2 : ℝ) : ℂ) := by
      push_cast
      linear_combination (-(w : ℂ) ^ 2) * hI
    have hD : ((x ^ 2 + w ^ 2 : ℝ) : ℂ) ≠ 0 := by rw [← hprod]; exact mul_ne_zero n1 n2
    have e : (1 / (-((w : ℂ) * Complex.I) - x) * (1 / (-((w : ℂ) * Complex.I) - x)) + 1 / ((w : ℂ) * Complex.I - x) * (1 / ((w : ℂ) * Complex.I - x)))
        = 2 * ((x ^ 2 - w ^ 2 : ℝ) : ℂ) / ((x ^ 2 + w ^ 2 : ℝ) : ℂ) ^ 2 := by
      rw [← hprod]
      field_simp
      push_cast
      linear_combination (2 * (w : ℂ) ^ 2) * hI
    have : (-(1 / (-((w : ℂ) * Complex.I) - x) * (1 / (-((w : ℂ) * Complex.I) - x))) * ((beta : ℂ) / 1)
        + -(1 / ((w : ℂ) * Complex.I - x) * (1 / ((w : ℂ) * Complex.I - x))) * ((beta : ℂ) / 1)) / ((beta : ℂ) * beta)
        = -((1 / (-((w : ℂ) * Complex.I) - x) * (1 / (-((w : ℂ) * Complex.I) - x)) + 1 / ((w : ℂ) * Complex.I - x) * (1 / ((w : ℂ) * Complex.I - x)))) / beta := by
      field_simp
      ring
    rw [this, e]
    push_cast at hD ⊢
    field_simp
  rw [hval]
  refine ⟨Complex.ofReal_im _, ?_⟩
  rw [Complex.ofReal_re, neg_lt_zero]
  have : 0 < x ^ 2 - w ^ 2 := by nlinarith
  positivity

/-! ## The Hubbard model -/

/-- the interaction tensor that `get_rpa_tensor` reads from `U n_up n_down` -/
theorem hubbard_tensor (U : ℝ) : ∃ Γ, Operators.getRpaTensor [(0 : Fin 2), 1] [(FitDlr.atomMono, (U : ℂ))] = .ok Γ ∧
    coupling Γ = Matrix.of fun p q : Fin 2 × Fin 2 =>
      if p = q ∧ p.1 ≠ p.2 then (U : ℂ) else if p.1 = p.2 ∧ q.1 = q.2 ∧ p ≠ q then -(U : ℂ) else 0 := by
  refine ⟨fun a b c d => 4 * Operators.permSym (Operators.set4 (fun _ _ _ _ => 0) 0 1 1 0 (U : ℂ)) b d a c, rfl, ?_⟩
  ext ⟨a, b⟩ ⟨c, e⟩
  simp only [coupling, Matrix.of_apply]
  fin_cases a <;> fin_cases b <;> fin_cases c <;> fin_cases e <;> simp [Operators.permSym, Operators.set4] <;> ring

theorem hubbard_roots {C : Matrix (Fin 2 × Fin 2) (Fin 2 × Fin 2) ℂ} {y : ℂ}
    (hC : C = Matrix.of fun p q : Fin 2 × Fin 2 =>
      if p = q ∧ p.1 ≠ p.2 then y else if p.1 = p.2 ∧ q.1 = q.2 ∧ p ≠ q then -y else 0) (z : ℂ) :
    z ∈ C.charpoly.roots ↔ z = y ∨ z = -y := by
  rw [HfResponse.mem_roots_iff]
  have hmul : ∀ v : Fin 2 × Fin 2 → ℂ, C *ᵥ v = fun p => if p.1 = p.2 then -y * v (1 - p.1, 1 - p.1) else y * v p := by
    intro v
    funext ⟨a, b⟩
    rw [hC]
    simp only [mulVec, dotProduct, Matrix.of_apply, Fintype.sum_prod_type, Fin.sum_univ_two]
    fin_cases a <;> fin_cases b <;> simp
  constructor
  · rintro ⟨v, hv, h⟩
    rw [hmul] at h
    have h00 := congrFun h (0, 0)
    have h01 := congrFun h (0, 1)
    have h10 := congrFun h (1, 0)
    have h11 := congrFun h (1, 1)
    simp at h00 h01 h10 h11
    by_contra hcon
    push Not at hcon
    apply hv
    have hz : z ^ 2 - y ^ 2 ≠ 0 := by
      have : z ^ 2 - y ^ 2 = (z - y) * (z - -y) := by ring
      rw [this]
      exact mul_ne_zero (sub_ne_zero.2 hcon.1) (sub_ne_zero.2 hcon.2)
    funext ⟨a, b⟩
    fin_cases a <;> fin_cases b
    · refine (mul_eq_zero.1 (?_ : (z ^ 2 - y ^ 2) * v (0, 0) = 0)).resolve_left hz
      linear_combination (-z) * h00 + y * h11
    · rcases h01 with h | h
      · exact absurd h.symm hcon.1
      · exact h
    · rcases h10 with h | h
      · exact absurd h.symm hcon.1
      · exact h
    · refine (mul_eq_zero.1 (?_ : (z ^ 2 - y ^ 2) * v (1, 1) = 0)).resolve_left hz
      linear_combination (-z) * h11 + y * h00
  · rintro (rfl | rfl)
    · refine ⟨Pi.single (0, 1) 1, ?_, ?_⟩
      · intro h
        have := congrFun h (0, 1)
        simp at this
      · rw [hmul]
        funext ⟨a, b⟩
        fin_cases a <;> fin_cases b <;> simp
    · refine ⟨fun p => if p.1 = p.2 then 1 else 0, ?_, ?_⟩
      · intro h
        have := congrFun h (0, 0)
        simp at this
      · rw [hmul]
        funext ⟨a, b⟩
        fin_cases a <;> fin_cases b <;> simp

theorem hubbard_hermitian (U : ℝ) : (Matrix.of fun p q : Fin 2 × Fin 2 =>
      if p = q ∧ p.1 ≠ p.2 then (U : ℂ) else if p.1 = p.2 ∧ q.1 = q.2 ∧ p ≠ q then -(U : ℂ) else 0).IsHermitian := by
  ext ⟨a, b⟩ ⟨c, e⟩
  rw [conjTranspose_apply]
  fin_cases a <;> fin_cases b <;> fin_cases c <;> fin_cases e <;> simp

/-- the Lindhard function of one band -/
def bandLindhard (tol beta mu : ℝ) (ε : Lat n → ℝ) (q : Lat n) : ℂ :=
  (Fintype.card (Lat n) : ℂ)⁻¹ * ∑ k, totalFactor tol beta 0 (ε k - mu) (ε (k + q) - mu)

theorem lindhard_band (ranks : ℕ) (hr : 0 < ranks) (eig : Eig (Fin 2)) (hs : EigSpec eig) (tol beta mu : ℝ)
    (kmesh : List (Lat n)) (hnd : kmesh.Nodup) (hall : ∀ k, k ∈ kmesh) (ε : Lat n → ℝ) (q : Lat n) :
    form (lindhard ranks eig tol beta mu kmesh (fun k => (ε k : ℂ) • (1 : Matrix (Fin 2) (Fin 2) ℂ)) 0 q)
      = bandLindhard tol beta mu ε q • (1 : Matrix (Fin 2 × Fin 2) (Fin 2 × Fin 2) ℂ) := by
  have hh : ∀ k, ((ε k : ℂ) • (1 : Matrix (Fin 2) (Fin 2) ℂ)).IsHermitian := by
    intro k
    rw [Matrix.IsHermitian, conjTranspose_smul, conjTranspose_one]
    simp
  rw [lindhard_eq ranks hr eig tol beta mu kmesh hnd hall, form_smul, form_sum, bandLindhard, mul_smul, Finset.sum_smul]
  congr 1
  refine Finset.sum_congr rfl fun k _ => ?_
  have hd : ∀ k, Diag (((ε k : ℂ) • (1 : Matrix (Fin 2) (Fin 2) ℂ)) - (mu : ℂ) • 1) ((fun _ => ε k - mu), 1) := by
    intro k
    refine ⟨by simp, by simp, ?_⟩
    rw [Matrix.one_mul, conjTranspose_one, Matrix.mul_one, ← sub_smul]
    ext i j
    by_cases h : i = j <;> simp [h]
  rw [dbl_unique (sys_diag hs mu hh k) (hd k) (sys_diag hs mu hh (k + q)) (hd (k + q)), form_dbl]
  have h1 : pairVec ((fun _ => ε k - mu), (1 : Matrix (Fin 2) (Fin 2) ℂ)) ((fun _ => ε (k + q) - mu), 1) = 1 := by
    ext ⟨a, b⟩ ⟨c, e⟩
    simp only [pairVec, Matrix.of_apply, Matrix.one_apply, Prod.mk.injEq]
    by_cases ha : a = c <;> by_cases hb : b = e <;> simp [ha, hb]
  rw [h1, Matrix.one_mul, conjTranspose_one, Matrix.mul_one]
  ext i j
  by_cases h : i = j <;> simp [h]

/-- C106: the Stoner criterion of the Hubbard model. For one band with the interaction `U n_up n_down`, the Lindhard function and
the tensor of `get_rpa_tensor`, the response that the solver returns at momentum `q` is positive definite exactly if
`|U| chi0(q) < 1`: a repulsion is limited by the spin, an attraction by the charge response. -/
theorem C106_hubbard (ranks ranks' : ℕ) (hr : 0 < ranks) (hr' : 0 < ranks') (mesh : List (Lat n)) (hm : mesh.Nodup)
    (eig : Eig (Fin 2)) (hs : EigSpec eig) {tol beta : ℝ} (ht : 0 < tol) (hb : 0 < beta) (mu : ℝ) (kmesh : List (Lat n))
    (hnd : kmesh.Nodup) (hall : ∀ k, k ∈ kmesh) (ε : Lat n → ℝ) (q : Lat n) (hq : q ∈ mesh) (U : ℝ) :
    ∃ Γ, Operators.getRpaTensor [(0 : Fin 2), 1] [(FitDlr.atomMono, (U : ℂ))] = .ok Γ ∧
      ((form (solveRpaPH ranks' mesh (lindhard ranks eig tol beta mu kmesh
        (fun k => (ε k : ℂ) • (1 : Matrix (Fin 2) (Fin 2) ℂ)) 0) Γ q)).PosDef
        ↔ |U| * (bandLindhard tol beta mu ε q).re < 1) := by
  obtain ⟨Γ, hΓ, hc⟩ := hubbard_tensor U
  refine ⟨Γ, hΓ, ?_⟩
  have hh : ∀ k, ((ε k : ℂ) • (1 : Matrix (Fin 2) (Fin 2) ℂ)).IsHermitian := by
    intro k
    rw [Matrix.IsHermitian, conjTranspose_smul, conjTranspose_one]
    simp
  have hA := C106_lindhard ranks hr eig hs ht hb mu kmesh hnd hall _ hh q
  have hU : (coupling Γ).IsHermitian := by
    rw [hc]
    exact hubbard_hermitian U
  rw [← (C106_stoner ranks' hr' mesh hm _ Γ q hq hA.posSemidef hU).2.2 hA, form_mul_coupling,
    lindhard_band ranks hr eig hs tol beta mu kmesh hnd hall ε q]
  have hx : 0 ≤ bandLindhard tol beta mu ε q := by
    unfold bandLindhard
    refine mul_nonneg ?_ (Finset.sum_nonneg fun k _ => (totalFactor_pos ht hb _ _).le)
    rw [← Complex.ofReal_natCast, ← Complex.ofReal_inv, Complex.zero_le_real]
    positivity
  have hx1 := (Complex.nonneg_iff.1 hx).1
  have hx' : bandLindhard tol beta mu ε q = ((bandLindhard tol beta mu ε q).re : ℂ) :=
    Complex.ext (by simp) (by simpa using (Complex.nonneg_iff.1 hx).2.symm)
  set x := (bandLindhard tol beta mu ε q).re
  rw [hx', Matrix.smul_mul, Matrix.one_mul, hc]
  have hC : ((x : ℂ) • Matrix.of fun p q : Fin 2 × Fin 2 =>
      if p = q ∧ p.1 ≠ p.2 then (U : ℂ) else if p.1 = p.2 ∧ q.1 = q.2 ∧ p ≠ q then -(U : ℂ) else 0)
      = Matrix.of fun p q : Fin 2 × Fin 2 =>
      if p = q ∧ p.1 ≠ p.2 then ((x * U : ℝ) : ℂ) else if p.1 = p.2 ∧ q.1 = q.2 ∧ p ≠ q then -((x * U : ℝ) : ℂ) else 0 := by
    ext p q
    simp only [Matrix.smul_apply, Matrix.of_apply, smul_eq_mul]
    split_ifs <;> push_cast <;> ring
  have hroots := hubbard_roots hC
  simp only [hroots, forall_eq_or_imp, forall_eq, Complex.ofReal_re, Complex.neg_re]
  rw [← abs_of_nonneg hx1, ← abs_mul, abs_lt, abs_of_nonneg hx1, mul_comm U x]
  constructor
  · rintro ⟨h1, h2⟩
    exact ⟨by linarith, h1⟩
  · rintro ⟨h1, h2⟩
    exact ⟨h2, by linarith⟩

/-- the hypotheses of the theorems on stability hold together: two momenta, a band with different energies, a repulsion below
the instability -/
example : ∃ (eig : Eig (Fin 2)) (chi0 : Lat (fun _ : Fin 1 => 2) → Rpa.T4 (Fin 2) ℂ) (U : Rpa.T4 (Fin 2) ℂ),
    EigSpec eig ∧ (∀ q, (form (chi0 q)).PosDef) ∧ (coupling U).IsHermitian ∧ coupling U ≠ 0 := by
  obtain ⟨eig, hs⟩ := exists_eigSpec (o := Fin 2)
  obtain ⟨Γ, -, hc⟩ := hubbard_tensor 1
  refine ⟨eig, lindhard 1 eig 1 1 0 Finset.univ.toList (fun k => ((if k 0 = 0 then 1 else 0 : ℝ) : ℂ) • 1) 0, Γ, hs,
    fun q => C106_lindhard 1 one_pos eig hs one_pos one_pos 0 _ (Finset.nodup_toList _) (fun k => by simp) _ (fun k => ?_) q, ?_, ?_⟩
  · rw [Matrix.IsHermitian, conjTranspose_smul, conjTranspose_one]
    simp
  · rw [hc]
    exact hubbard_hermitian 1
  · intro h
    have := congrFun (congrFun (hc.symm.trans h) (0, 1)) (0, 1)
    simp at this

end Verif.Stoner
