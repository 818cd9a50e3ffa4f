import Verif.Eliashberg.Plain
import Verif.Stable.Props
import Verif.Steps.Props
import Mathlib.NumberTheory.ZetaValues

/-!
# C138: the eigenvalues of the linearised Eliashberg equation are bounded by vertex over temperature

Theorems about the models of `eliashberg_product` (`Verif.Eliashberg`) and `lattice_dyson_g_wk` (`Verif.Dyson`).
-/

set_option linter.unusedSectionVars false

noncomputable section

namespace Verif.PairBound

open Matrix Complex Verif.Unique Verif.Stable Verif.Dyson Verif.Causal Verif.Fourier Verif.Eliashberg Verif.Gw Verif.Bubble
open scoped ComplexOrder

/-! ## The sum of `1/ν²` -/

theorem odd_squares : HasSum (fun n : ℕ => 1 / ((2 * n + 1 : ℕ) : ℝ) ^ 2) (Real.pi ^ 2 / 8) := by
  have h := hasSum_zeta_two
  have he : HasSum (fun n : ℕ => 1 / ((2 * n : ℕ) : ℝ) ^ 2) (Real.pi ^ 2 / 24) := by
    have h1 := h.mul_left (1 / 4)
    have e : (fun n : ℕ => 1 / ((2 * n : ℕ) : ℝ) ^ 2) = fun n : ℕ => 1 / 4 * (1 / (n : ℝ) ^ 2) := by
      funext n
      push_cast
      rw [mul_pow, one_div_mul_one_div]
      norm_num
    have e2 : Real.pi ^ 2 / 24 = 1 / 4 * (Real.pi ^ 2 / 6) := by ring
    rw [e, e2]
    exact h1
  have hs : Summable (fun n : ℕ => 1 / ((2 * n + 1 : ℕ) : ℝ) ^ 2) :=
    h.summable.comp_injective (i := fun n : ℕ => 2 * n + 1) fun a b hab => by
      simp only at hab
      omega
  have h2 := (HasSum.even_add_odd (f := fun n : ℕ => 1 / (n : ℝ) ^ 2) he hs.hasSum).unique h
  have h3 : ∑' n : ℕ, 1 / ((2 * n + 1 : ℕ) : ℝ) ^ 2 = Real.pi ^ 2 / 8 := by linarith
  rw [← h3]
  exact hs.hasSum

/-- fermionic Matsubara frequency -/
def nu (beta : ℝ) (m : ℤ) : ℝ := (2 * m + 1) * Real.pi / beta

theorem matsubara_eq (beta : ℝ) (m : ℤ) : matsubara .fermion beta m = nu beta m * I := by
  unfold matsubara nu
  push_cast
  ring

theorem odd_ne (m : ℤ) : (2 * (m : ℝ) + 1) ≠ 0 := by
  have : (2 * m + 1 : ℤ) ≠ 0 := by omega
  exact_mod_cast this

theorem nu_ne {beta : ℝ} (hb : 0 < beta) (m : ℤ) : nu beta m ≠ 0 :=
  div_ne_zero (mul_ne_zero (odd_ne m) Real.pi_ne_zero) hb.ne'

theorem window_split (N : ℕ) (f : ℤ → ℝ) :
    ∑ m ∈ window N, f m = ∑ j ∈ Finset.range N, (f j + f (-(j : ℤ) - 1)) := by
  induction N with
  | zero => simp
  | succ N ih =>
    rw [Finset.sum_range_succ, ← ih]
    have e : window (N + 1) = insert (N : ℤ) (insert (-(N : ℤ) - 1) (window N)) := by
      ext m
      simp only [Finset.mem_Ico, Finset.mem_insert]
      push_cast
      omega
    rw [e, Finset.sum_insert (by simp only [Finset.mem_Ico, Finset.mem_insert]; omega),
      Finset.sum_insert (by simp only [Finset.mem_Ico]; omega)]
    ring

theorem sum_nu_eq (beta : ℝ) (hb : 0 < beta) (N : ℕ) : ∑ m ∈ window N, 1 / nu beta m ^ 2
    = 2 * (beta / Real.pi) ^ 2 * ∑ j ∈ Finset.range N, 1 / ((2 * j + 1 : ℕ) : ℝ) ^ 2 := by
  rw [window_split, Finset.mul_sum]
  refine Finset.sum_congr rfl fun j _ => ?_
  have hp := Real.pi_pos
  have h1 := odd_ne j
  have h2 : nu beta (-(j : ℤ) - 1) = -nu beta j := by
    unfold nu
    push_cast
    ring
  rw [h2, neg_sq]
  unfold nu
  push_cast at h1 ⊢
  field_simp
  ring

/-- on every mesh the sum of `1/ν²` stays below its value `β²/4` for infinitely many frequencies -/
theorem sum_nu (beta : ℝ) (hb : 0 < beta) (N : ℕ) : ∑ m ∈ window N, 1 / nu beta m ^ 2 ≤ beta ^ 2 / 4 := by
  rw [sum_nu_eq beta hb]
  have hp := Real.pi_pos
  have h1 := sum_le_hasSum (Finset.range N) (fun j _ => by positivity) odd_squares
  calc 2 * (beta / Real.pi) ^ 2 * ∑ j ∈ Finset.range N, 1 / ((2 * j + 1 : ℕ) : ℝ) ^ 2
      ≤ 2 * (beta / Real.pi) ^ 2 * (Real.pi ^ 2 / 8) := mul_le_mul_of_nonneg_left h1 (by positivity)
    _ = beta ^ 2 / 4 := by
      field_simp
      norm_num

/-! ## Sizes -/

section Sizes

variable {o : Type*} [Fintype o] [DecidableEq o]

theorem size_transpose (X : Matrix o o ℂ) : size Xᵀ = size X := by
  unfold size size2
  rw [Finset.sum_comm]
  rfl

theorem size_sum_le {ι : Type*} (s : Finset ι) (X : ι → Matrix o o ℂ) : size (∑ i ∈ s, X i) ≤ ∑ i ∈ s, size (X i) := by
  classical
  induction s using Finset.induction_on with
  | empty => simp [size, size2]
  | insert i s hi ih =>
    rw [Finset.sum_insert hi, Finset.sum_insert hi]
    exact (size_add_le _ _).trans (by linarith)

theorem size_csmul (z : ℂ) (X : Matrix o o ℂ) : size (z • X) = ‖z‖ * size X := by
  unfold size size2
  simp only [Matrix.smul_apply, smul_eq_mul, norm_mul, mul_pow, ← Finset.mul_sum]
  rw [Real.sqrt_mul (sq_nonneg _), Real.sqrt_sq (norm_nonneg _)]

/-- multiplication by `G` makes nothing longer than by `1/t` -/
def Damped (t : ℝ) (G : Matrix o o ℂ) : Prop := ∀ X : Matrix o o ℂ, size (G * X) ≤ size X / t ∧ size (X * G) ≤ size X / t

theorem size_pair {t : ℝ} (ht : 0 < t) {G Gm : Matrix o o ℂ} (hG : Damped t G) (hm : Damped t Gm) (D : Matrix o o ℂ) :
    size (gdgPoint G Gm D : o → o → ℂ) ≤ size D / t ^ 2 := by
  have e : (gdgPoint G Gm D : o → o → ℂ) = (Gmᴴ * D * Gᵀ : Matrix o o ℂ) := by
    funext x c
    rw [Matrix.mul_apply]
    simp only [gdgPoint, Matrix.mul_apply, Matrix.transpose_apply, Matrix.conjTranspose_apply, Finset.sum_mul]
    rw [Finset.sum_comm]
    refine Finset.sum_congr rfl fun f _ => Finset.sum_congr rfl fun y _ => ?_
    simp only [RCLike.star_def]
    ring
  rw [e]
  have h1 : size (Gmᴴ * D * Gᵀ) ≤ size (Gmᴴ * D) / t := by
    have := (hG (Gmᴴ * D)ᵀ).1
    rwa [← size_transpose, Matrix.transpose_mul, Matrix.transpose_transpose, size_transpose] at this
  have h2 : size (Gmᴴ * D) ≤ size D / t := by
    have := (hm Dᴴ).2
    rwa [← size_conj, Matrix.conjTranspose_mul, Matrix.conjTranspose_conjTranspose, size_conj] at this
  rw [sq, ← div_div]
  exact h1.trans (div_le_div_of_nonneg_right h2 ht.le)

theorem size_gammaF (gamma : T4 o) (F : Matrix o o ℂ) :
    size (gammaF gamma F : o → o → ℂ) ≤ 1 / 2 * Steps.size4 gamma * size F := by
  have h : ∀ a b, ‖gammaF gamma F a b‖ ^ 2 ≤ 1 / 4 * (∑ c, ∑ x, ‖gamma c a x b‖ ^ 2) * size2 F := by
    intro a b
    have e1 : ‖gammaF gamma F a b‖ ≤ 1 / 2 * ∑ p : o × o, ‖gamma p.1 a p.2 b‖ * ‖F p.2 p.1‖ := by
      unfold gammaF
      rw [Fintype.sum_prod_type, Finset.mul_sum]
      refine (norm_sum_le _ _).trans (Finset.sum_le_sum fun c _ => ?_)
      rw [Finset.mul_sum]
      refine (norm_sum_le _ _).trans (Finset.sum_le_sum fun x _ => ?_)
      rw [norm_mul, norm_mul, norm_neg, mul_assoc]
      norm_num
    have e2 := Finset.sum_mul_sq_le_sq_mul_sq Finset.univ (fun p : o × o => ‖gamma p.1 a p.2 b‖) (fun p => ‖F p.2 p.1‖)
    have e3 : ∑ p : o × o, ‖F p.2 p.1‖ ^ 2 = size2 F := by
      rw [Fintype.sum_prod_type, Finset.sum_comm]
      rfl
    rw [e3, Fintype.sum_prod_type (f := fun p : o × o => ‖gamma p.1 a p.2 b‖ ^ 2)] at e2
    have e4 : ‖gammaF gamma F a b‖ ^ 2 ≤ (1 / 2 * ∑ p : o × o, ‖gamma p.1 a p.2 b‖ * ‖F p.2 p.1‖) ^ 2 :=
      pow_le_pow_left₀ (norm_nonneg _) e1 2
    rw [mul_pow] at e4
    linarith
  have e5 : ∑ a, ∑ b, ∑ c, ∑ x, ‖gamma c a x b‖ ^ 2 = ∑ a, ∑ b, ∑ c, ∑ x, ‖gamma a b c x‖ ^ 2 := by
    calc ∑ a, ∑ b, ∑ c, ∑ x, ‖gamma c a x b‖ ^ 2 = ∑ a, ∑ c, ∑ b, ∑ x, ‖gamma c a x b‖ ^ 2 :=
          Finset.sum_congr rfl fun a _ => Finset.sum_comm
      _ = ∑ c, ∑ a, ∑ b, ∑ x, ‖gamma c a x b‖ ^ 2 := Finset.sum_comm
      _ = _ := Finset.sum_congr rfl fun c _ => Finset.sum_congr rfl fun a _ => Finset.sum_comm
  have h2 : size2 (gammaF gamma F : o → o → ℂ) ≤ (1 / 2 * Steps.size4 gamma * size F) ^ 2 := by
    rw [mul_pow, mul_pow, size_sq, Steps.size4,
      Real.sq_sqrt (Finset.sum_nonneg fun _ _ => Finset.sum_nonneg fun _ _ => Finset.sum_nonneg fun _ _ =>
        Finset.sum_nonneg fun _ _ => sq_nonneg _), ← e5]
    unfold size2
    refine (Finset.sum_le_sum fun a _ => Finset.sum_le_sum fun b _ => h a b).trans (le_of_eq ?_)
    simp only [← Finset.sum_mul, ← Finset.mul_sum, size2]
    norm_num
  exact Real.sqrt_le_iff.2 ⟨mul_nonneg (mul_nonneg (by norm_num) (Real.sqrt_nonneg _)) (size_nonneg _), h2⟩

end Sizes

/-! ## Green's functions -/

section Green

variable {o : Type*} [Fintype o] [DecidableEq o]

/-- the Green's function at one frequency, for a self energy that damps -/
theorem damped_point {z mu : ℂ} (hz : z.im ≠ 0) (hmu : mu.im = 0) {e S : Matrix o o ℂ} (he : e.IsHermitian)
    (hp : 0 < z.im → (damping S).PosSemidef) (hn : z.im < 0 → (-damping S).PosSemidef) :
    Damped |z.im| ((z + mu) • (1 : Matrix o o ℂ) - e - S)⁻¹ := by
  rcases hz.lt_or_gt with h | h
  · have hS' : (damping (-S)).PosSemidef := by
      have : damping (-S) = -damping S := by
        unfold damping
        rw [Matrix.conjTranspose_neg, ← smul_neg]
        congr 1
        abel
      rw [this]
      exact hn h
    have hz' : 0 < (-z).im := by simpa using h
    have hmu' : (-mu).im = 0 := by simpa using hmu
    obtain ⟨h1, -⟩ := point hz' hmu' he.neg hS'
    have d := damping_denominator (z := -z) hmu' he.neg (S := -S)
    have eM : (-z + -mu) • (1 : Matrix o o ℂ) - -e - -S = -((z + mu) • (1 : Matrix o o ℂ) - e - S) := by module
    rw [eM] at h1 d
    set M := (z + mu) • (1 : Matrix o o ℂ) - e - S with hM
    have hu : IsUnit M.det := by
      rw [← Matrix.isUnit_iff_isUnit_det] at h1 ⊢
      exact (IsUnit.neg_iff M).1 h1
    have ei : (-M)⁻¹ = -M⁻¹ := by
      refine Matrix.inv_eq_right_inv ?_
      rw [neg_mul_neg, Matrix.mul_nonsing_inv _ hu]
    have hab : |z.im| = (-z).im := by rw [abs_of_neg h, Complex.neg_im]
    intro X
    have l := damped_left hz' hS' d h1 X
    have r := damped_right hz' hS' d h1 X
    rw [ei, Matrix.neg_mul, size_neg] at l
    rw [ei, Matrix.mul_neg, size_neg] at r
    rw [hab]
    exact ⟨l, r⟩
  · obtain ⟨h1, -⟩ := point h hmu he (hp h)
    have d := damping_denominator (z := z) hmu he (S := S)
    intro X
    rw [abs_of_pos h]
    exact ⟨damped_left h (hp h) d h1 X, damped_right h (hp h) d h1 X⟩

end Green

/-! ## The product -/

section Product

variable {d : ℕ} {n : Fin d → ℕ} [∀ i, NeZero (n i)] {o : Type*} [Fintype o] [DecidableEq o]

/-- the Green's function is not larger than that of a free electron at the Fermi energy, `1/|ν|` -/
def Causal (beta : ℝ) (N : ℕ) (g : ℤ → Lat n → o → o → ℂ) : Prop :=
  ∀ m ∈ window N, ∀ k, Damped |nu beta m| (g m k : o → o → ℂ)

/-- a table of orbital pairs as a matrix -/
def mat (f : o → o → ℂ) : Matrix o o ℂ := f

theorem sum_bound (N : ℕ) (beta : ℝ) (hb : 0 < beta)
    (gamma : ℤ → Lat n → T4 o) (g delta : ℤ → Lat n → o → o → ℂ) (hg : Causal beta N g) (c D : ℝ)
    (hgam : ∀ l k, |l| < 2 * (N : ℤ) → Steps.size4 (gamma l k) ≤ c)
    (hD : ∀ m ∈ window N, ∀ k, size (delta m k) ≤ D) (w : ℤ) (hw : w ∈ window N) (k : Lat n) :
    size (sumValue beta N gamma g delta w k) ≤ beta * c / 8 * D := by
  have hD0 : 0 ≤ D := (size_nonneg _).trans (hD w hw k)
  have hc0 : 0 ≤ c := (Real.sqrt_nonneg _).trans (hgam 0 0 (by
    rw [Finset.mem_Ico] at hw
    rw [abs_zero]
    omega))
  have hK : (0 : ℝ) < Fintype.card (Lat n) := by exact_mod_cast Fintype.card_pos
  have e : sumValue beta N gamma g delta w k = (((beta * Fintype.card (Lat n) : ℝ) : ℂ)⁻¹ • ∑ m ∈ window N, ∑ q,
      mat (gammaF (gamma (w - m) (k - q)) (pairF g delta m q))) := by
    funext a b
    rw [sumValue, Matrix.smul_apply, Matrix.sum_apply, smul_eq_mul, div_eq_inv_mul]
    push_cast
    congr 1
    refine Finset.sum_congr rfl fun m _ => ?_
    rw [Matrix.sum_apply]
    rfl
  have term : ∀ m ∈ window N, ∀ q, size (mat (gammaF (gamma (w - m) (k - q)) (pairF g delta m q)))
      ≤ 1 / 2 * c * D * (1 / nu beta m ^ 2) := by
    intro m hm q
    have t : 0 < |nu beta m| := abs_pos.2 (nu_ne hb m)
    have hl : |w - m| < 2 * (N : ℤ) := by
      rw [Finset.mem_Ico] at hw hm
      rw [abs_lt]
      omega
    have a1 := size_gammaF (gamma (w - m) (k - q)) (pairF g delta m q)
    have a2 := size_pair t (hg m hm q) (hg m hm (-q)) (delta m q)
    rw [sq_abs] at a2
    have a3 : size (pairF g delta m q : o → o → ℂ) ≤ D * (1 / nu beta m ^ 2) := by
      refine a2.trans ?_
      rw [div_eq_mul_one_div]
      exact mul_le_mul_of_nonneg_right (hD m hm q) (by positivity)
    have a4 := hgam (w - m) (k - q) hl
    calc _ ≤ 1 / 2 * Steps.size4 (gamma (w - m) (k - q)) * size (pairF g delta m q : o → o → ℂ) := a1
      _ ≤ 1 / 2 * c * (D * (1 / nu beta m ^ 2)) :=
        mul_le_mul (mul_le_mul_of_nonneg_left a4 (by norm_num)) a3 (size_nonneg _) (by positivity)
      _ = _ := by ring
  rw [e, size_csmul, norm_inv, Complex.norm_real, Real.norm_eq_abs, abs_of_pos (by positivity)]
  have h3 : size (∑ m ∈ window N, ∑ q, mat (gammaF (gamma (w - m) (k - q)) (pairF g delta m q)))
      ≤ Fintype.card (Lat n) * (1 / 2 * c * D * (beta ^ 2 / 4)) := by
    refine (size_sum_le _ _).trans ?_
    calc ∑ m ∈ window N, size (∑ q, mat (gammaF (gamma (w - m) (k - q)) (pairF g delta m q)))
        ≤ ∑ m ∈ window N, (Fintype.card (Lat n) : ℝ) * (1 / 2 * c * D * (1 / nu beta m ^ 2)) := by
          refine Finset.sum_le_sum fun m hm => (size_sum_le _ _).trans ((Finset.sum_le_sum fun q _ => term m hm q).trans (le_of_eq ?_))
          rw [Finset.sum_const, nsmul_eq_mul]
          rfl
      _ = Fintype.card (Lat n) * (1 / 2 * c * D * ∑ m ∈ window N, 1 / nu beta m ^ 2) := by
          simp only [Finset.mul_sum]
      _ ≤ _ := mul_le_mul_of_nonneg_left (mul_le_mul_of_nonneg_left (sum_nu beta hb N) (by positivity)) hK.le
  calc _ ≤ (beta * Fintype.card (Lat n))⁻¹ * (Fintype.card (Lat n) * (1 / 2 * c * D * (beta ^ 2 / 4))) :=
        mul_le_mul_of_nonneg_left h3 (by positivity)
    _ = beta * c / 8 * D := by
      field_simp
      ring

/-- C138: `eliashberg_product` enlarges no gap by more than `β/8` times the largest vertex, whatever the number of frequencies and
momenta. -/
theorem C138_product (ranks : ℕ) (hr : 0 < ranks) (N Ng NG : ℕ) (beta : ℝ) (hb : 0 < beta) (lat : List (Lat n)) (hc : Complete lat)
    (gamma : ℤ → Lat n → T4 o) (g delta out : ℤ → Lat n → o → o → ℂ) (hg : Causal beta N g) (c D : ℝ)
    (hgam : ∀ l k, |l| < 2 * (N : ℤ) → Steps.size4 (gamma l k) ≤ c)
    (hD : ∀ m ∈ window N, ∀ k, size (delta m k) ≤ D)
    (hout : eliashbergProduct ranks N Ng NG beta lat gamma g delta = .ok out) (w : ℤ) (hw : w ∈ window N) (k : Lat n) :
    size (out w k) ≤ beta * c / 8 * D := by
  obtain ⟨h1, h2⟩ := (C59_accepts N Ng NG beta gamma g delta).1 ⟨out, hout⟩
  rw [eliashbergProduct_ok hr (by omega) (by omega) beta hc] at hout
  rw [← Except.ok.inj hout]
  exact sum_bound N beta hb gamma g delta hg c D hgam hD w hw k

/-- the vertex that the Fourier route uses: a constant, and a dynamic part on the frequencies it was given on -/
def vertexSum (NG : ℕ) (dyn : ℤ → Lat n → T4 o) (const : Lat n → T4 o) (l : ℤ) (k : Lat n) : T4 o := fun a b c x =>
  (if |l| < NG then dyn l k a b c x else 0) + const k a b c x

/-- C138: the same for the Fourier route, with transforms that satisfy the convolution theorem (see C58). -/
theorem C138_product_fft (ranks : ℕ) (hr : 0 < ranks) (N Ng NG L : ℕ) (hN : N ≤ Ng) (beta : ℝ) (hb : 0 < beta) (T : Transforms)
    (gT : (ℤ → ℂ) → ℕ → ℂ) (hT : ConvPair T gT beta N NG L) (lat : List (Lat n)) (hc : Complete lat)
    (dyn : ℤ → Lat n → T4 o) (const : Lat n → T4 o) (g delta out : ℤ → Lat n → o → o → ℂ) (hg : Causal beta N g) (c D : ℝ)
    (hgam : ∀ l k, |l| < 2 * (N : ℤ) → Steps.size4 (vertexSum NG dyn const l k) ≤ c)
    (hD : ∀ m ∈ window N, ∀ k, size (delta m k) ≤ D)
    (hout : eliashbergProductFFT ranks N Ng L L T lat (dynamicAndConstantToTr gT dyn const).1
      (dynamicAndConstantToTr gT dyn const).2 g delta = .ok out) (w : ℤ) (hw : w ∈ window N) (k : Lat n) :
    size (out w k) ≤ beta * c / 8 * D := by
  obtain ⟨out', h1, h2⟩ := C58_fft_value hr hN hT hc dyn const g delta
  rw [h1] at hout
  have e : out w k = sumValue beta N (fullVertex NG dyn const) g delta w k := by
    rw [← Except.ok.inj hout]
    funext a b
    exact h2 w hw k a b
  have e2 : fullVertex NG dyn const = vertexSum NG dyn const := by
    funext l q a b c x
    simp only [fullVertex, vertexSum]
  rw [e, e2]
  exact sum_bound N beta hb _ g delta hg c D hgam hD w hw k

/-- a gap that the product multiplies by `lam`, not zero on the mesh -/
structure EigenGap (N : ℕ) (delta out : ℤ → Lat n → o → o → ℂ) (lam : ℂ) : Prop where
  eq : ∀ m ∈ window N, ∀ k a b, out m k a b = lam * delta m k a b
  ne : ∃ m ∈ window N, ∃ k a b, delta m k a b ≠ 0

theorem eigen_bound {N : ℕ} {delta out : ℤ → Lat n → o → o → ℂ} {lam : ℂ} {r : ℝ} (h : EigenGap N delta out lam)
    (hb : ∀ D, (∀ m ∈ window N, ∀ k, size (delta m k) ≤ D) → ∀ w ∈ window N, ∀ k, size (out w k) ≤ r * D) : ‖lam‖ ≤ r := by
  obtain ⟨m0, hm0, k0, a0, b0, h0⟩ := h.ne
  have hne : (window N ×ˢ (Finset.univ : Finset (Lat n))).Nonempty := ⟨(m0, k0), Finset.mem_product.2 ⟨hm0, Finset.mem_univ _⟩⟩
  obtain ⟨⟨w, k⟩, hwk, hmax⟩ := Finset.exists_max_image _ (fun p : ℤ × Lat n => size (delta p.1 p.2)) hne
  have hw := (Finset.mem_product.1 hwk).1
  have hD : ∀ m ∈ window N, ∀ q, size (delta m q) ≤ size (delta w k) := fun m hm q =>
    hmax (m, q) (Finset.mem_product.2 ⟨hm, Finset.mem_univ _⟩)
  have hb' := hb _ hD w hw k
  have e : out w k = lam • mat (delta w k) := by
    funext a b
    exact h.eq w hw k a b
  rw [e, size_csmul] at hb'
  have hpos : 0 < size (delta w k) := by
    rcases (size_nonneg (delta w k)).eq_or_lt with hz | hz
    · exfalso
      have h1 : size (delta m0 k0) = 0 := le_antisymm ((hD m0 hm0 k0).trans hz.symm.le) (size_nonneg _)
      exact h0 (congrFun (congrFun (size_eq_zero h1) a0) b0)
    · exact hz
  exact le_of_mul_le_mul_right hb' hpos

/-- C138: every eigenvalue of the product is at most `β/8` times the largest vertex. -/
theorem C138_eigenvalue (ranks : ℕ) (hr : 0 < ranks) (N Ng NG : ℕ) (beta : ℝ) (hb : 0 < beta) (lat : List (Lat n)) (hc : Complete lat)
    (gamma : ℤ → Lat n → T4 o) (g delta out : ℤ → Lat n → o → o → ℂ) (hg : Causal beta N g) (c : ℝ)
    (hgam : ∀ l k, |l| < 2 * (N : ℤ) → Steps.size4 (gamma l k) ≤ c)
    (hout : eliashbergProduct ranks N Ng NG beta lat gamma g delta = .ok out) (lam : ℂ) (h : EigenGap N delta out lam) :
    ‖lam‖ ≤ beta * c / 8 :=
  eigen_bound h fun D hD w hw k => C138_product ranks hr N Ng NG beta hb lat hc gamma g delta out hg c D hgam hD hout w hw k

/-- C138: the same for the Fourier route. -/
theorem C138_eigenvalue_fft (ranks : ℕ) (hr : 0 < ranks) (N Ng NG L : ℕ) (hN : N ≤ Ng) (beta : ℝ) (hb : 0 < beta) (T : Transforms)
    (gT : (ℤ → ℂ) → ℕ → ℂ) (hT : ConvPair T gT beta N NG L) (lat : List (Lat n)) (hc : Complete lat)
    (dyn : ℤ → Lat n → T4 o) (const : Lat n → T4 o) (g delta out : ℤ → Lat n → o → o → ℂ) (hg : Causal beta N g) (c : ℝ)
    (hgam : ∀ l k, |l| < 2 * (N : ℤ) → Steps.size4 (vertexSum NG dyn const l k) ≤ c)
    (hout : eliashbergProductFFT ranks N Ng L L T lat (dynamicAndConstantToTr gT dyn const).1
      (dynamicAndConstantToTr gT dyn const).2 g delta = .ok out) (lam : ℂ) (h : EigenGap N delta out lam) : ‖lam‖ ≤ beta * c / 8 :=
  eigen_bound h fun D hD w hw k =>
    C138_product_fft ranks hr N Ng NG L hN beta hb T gT hT lat hc dyn const g delta out hg c D hgam hD hout w hw k

/-- C138: the Green's function of `lattice_dyson_g_wk`, for Hermitian dispersion, real chemical potential and any self energy that damps,
is not larger than `1/|ν|`. -/
theorem C138_causal (ranks : ℕ) (hr : 0 < ranks) (N Ng : ℕ) (h1 : N ≤ Ng) (beta : ℝ) (hb : 0 < beta)
    (lat : List (Lat n)) (hc : Complete lat) (mu : ℂ) (hmu : mu.im = 0) (e : Lat n → Matrix o o ℂ)
    (he : ∀ k, (e k).IsHermitian) (sigma : Sigma ℤ (Lat n) o ℂ) (S : ℤ → Lat n → Matrix o o ℂ)
    (hS : ∀ m k, SelfEnergyAt sigma m k (S m k)) (hp : ∀ m k, 0 ≤ m → (damping (S m k)).PosSemidef)
    (hn : ∀ m k, m < 0 → (-damping (S m k)).PosSemidef) : Causal beta N (fun m k =>
      latticeDysonGXk ranks mu (matsubara .fermion beta) (wIndices .fermion Ng) lat e sigma 0 (m, k)) := by
  intro m hm k
  have hmg : m ∈ wIndices .fermion Ng := by
    rw [mem_wIndices_fermion]
    rw [Finset.mem_Ico] at hm ⊢
    omega
  have him : (matsubara .fermion beta m + 0).im = nu beta m := by
    rw [add_zero, matsubara_eq]
    simp
  have hsign : (0 < nu beta m ↔ 0 ≤ m) := by
    unfold nu
    rw [div_pos_iff_of_pos_right hb, mul_pos_iff_of_pos_right Real.pi_pos]
    constructor
    · intro h
      have : (0 : ℤ) < 2 * m + 1 := by exact_mod_cast h
      omega
    · intro h
      have : (0 : ℤ) < 2 * m + 1 := by omega
      exact_mod_cast this
  have := damped_point (z := matsubara .fermion beta m + 0) (mu := mu) (e := e k) (S := S m k) (by rw [him]; exact nu_ne hb m) hmu (he k)
    (fun hz => hp m k (hsign.1 (him ▸ hz)))
    (fun hz => hn m k (by
      rw [him] at hz
      by_contra h0
      exact absurd (hsign.2 (not_lt.1 h0)) (not_lt.2 hz.le)))
  rw [him] at this
  change Damped _ (latticeDysonGXk ranks mu (matsubara .fermion beta) (wIndices .fermion Ng) lat e sigma 0 (m, k))
  rw [GXk_eq ranks hr mu _ _ lat (wIndices_fermion_nodup Ng) hc.1 e sigma 0 m k hmg (hc.2 k) (S m k) (hS m k)]
  exact this

/-- C138: with the Green's function of `lattice_dyson_g_wk`: Hermitian dispersion, real chemical potential, any self energy that damps.
An eigenvalue of modulus one or more needs a vertex of at least `8 T`. -/
theorem C138_instability (ranks ranks' : ℕ) (hr : 0 < ranks) (hr' : 0 < ranks') (N Ng NG : ℕ) (beta : ℝ) (hb : 0 < beta)
    (lat : List (Lat n)) (hc : Complete lat) (mu : ℂ) (hmu : mu.im = 0) (e : Lat n → Matrix o o ℂ)
    (he : ∀ k, (e k).IsHermitian) (sigma : Sigma ℤ (Lat n) o ℂ) (S : ℤ → Lat n → Matrix o o ℂ)
    (hS : ∀ m k, SelfEnergyAt sigma m k (S m k)) (hp : ∀ m k, 0 ≤ m → (damping (S m k)).PosSemidef)
    (hn : ∀ m k, m < 0 → (-damping (S m k)).PosSemidef) (gamma : ℤ → Lat n → T4 o) (delta out : ℤ → Lat n → o → o → ℂ) (c : ℝ)
    (hgam : ∀ l k, |l| < 2 * (N : ℤ) → Steps.size4 (gamma l k) ≤ c)
    (hout : eliashbergProduct ranks N Ng NG beta lat gamma
      (fun m k => latticeDysonGXk ranks' mu (matsubara .fermion beta) (wIndices .fermion Ng) lat e sigma 0 (m, k)) delta = .ok out)
    (lam : ℂ) (h : EigenGap N delta out lam) : ‖lam‖ ≤ beta * c / 8 ∧ (1 ≤ ‖lam‖ → 8 * (1 / beta) ≤ c) := by
  obtain ⟨h1, -⟩ := (C59_accepts N Ng NG beta gamma _ delta).1 ⟨out, hout⟩
  have hg := C138_causal ranks' hr' N Ng (by omega) beta hb lat hc mu hmu e he sigma S hS hp hn
  have h2 := C138_eigenvalue ranks hr N Ng NG beta hb lat hc gamma _ delta out hg c hgam hout lam h
  refine ⟨h2, fun h3 => ?_⟩
  rw [mul_one_div, div_le_iff₀ hb]
  linarith

end Product

/-! ## An example: free electrons at the Fermi energy, constant attraction -/

section Example

/-- one momentum -/
abbrev L0 : Type := Lat (fun _ : Fin 1 => 1)

theorem L0_complete : Complete [(0 : L0)] := by
  refine ⟨List.nodup_singleton _, fun k => ?_⟩
  rw [List.mem_singleton]
  funext i
  exact Subsingleton.elim (α := ZMod 1) _ _

/-- the Green's function of the example, on `2 N` frequencies -/
def exG (beta : ℝ) (N : ℕ) (m : ℤ) (k : L0) : Fin 1 → Fin 1 → ℂ :=
  latticeDysonGXk 1 0 (matsubara .fermion beta) (wIndices .fermion N) [(0 : L0)] (fun _ => (0 : Matrix (Fin 1) (Fin 1) ℂ))
    (.local fun _ => 0) 0 (m, k)

theorem exG_eq (beta : ℝ) (N : ℕ) (m : ℤ) (hm : m ∈ window N) (k : L0) (a b : Fin 1) : exG beta N m k a b = (nu beta m * I)⁻¹ := by
  have hmg : m ∈ wIndices .fermion N := (mem_wIndices_fermion N m).2 hm
  unfold exG
  rw [GXk_eq 1 one_pos 0 _ _ [(0 : L0)] (wIndices_fermion_nodup N) L0_complete.1 _ _ 0 m k hmg (L0_complete.2 k) 0
    (SelfEnergyAt.loc _ m k)]
  rw [add_zero, add_zero, sub_zero, sub_zero, matsubara_eq, Matrix.inv_def, Matrix.det_fin_one, Subsingleton.elim a 0,
    Subsingleton.elim b 0, Matrix.adjugate_fin_one]
  simp [Ring.inverse_eq_inv']

/-- the eigenvalue of the example -/
def exLam (beta : ℝ) (N : ℕ) : ℝ := 1 / (2 * beta) * ∑ m ∈ window N, 1 / nu beta m ^ 2

/-- the gap is constant -/
theorem example_eigenvalue (beta : ℝ) (hb : 0 < beta) (N : ℕ) (hN : 0 < N) : ∃ out,
    eliashbergProduct 1 N N (2 * N + 1) beta [(0 : L0)] (fun _ _ _ _ _ _ => -1) (exG beta N) (fun _ _ _ _ => 1) = .ok out ∧
      EigenGap N (fun _ _ _ _ => 1) out (exLam beta N : ℂ) := by
  refine ⟨_, eliashbergProduct_ok one_pos le_rfl (by omega) beta L0_complete _ _ _,
    ⟨fun m _ k a b => ?_, ⟨0, by rw [Finset.mem_Ico]; omega, 0, 0, 0, one_ne_zero⟩⟩⟩
  have hcard : Fintype.card L0 = 1 := by decide
  have hb' : (beta : ℂ) ≠ 0 := by exact_mod_cast hb.ne'
  have t : ∀ m ∈ window N, ∀ q : L0, gammaF (fun _ _ _ _ => (-1 : ℂ)) (pairF (exG beta N) (fun _ _ _ _ => 1) m q) a b
      = 1 / 2 * (1 / ((nu beta m : ℂ) ^ 2)) := by
    intro m hm q
    simp only [gammaF, pairF, gdgPoint, exG_eq beta N m hm, Finset.univ_unique, Finset.sum_singleton]
    rw [map_inv₀, map_mul, Complex.conj_I, Complex.conj_ofReal, mul_one, ← mul_inv]
    have : (nu beta m : ℂ) * I * ((nu beta m : ℂ) * -I) = (nu beta m : ℂ) ^ 2 := by
      linear_combination -(nu beta m : ℂ) ^ 2 * Complex.I_sq
    rw [this]
    ring
  unfold sumValue exLam
  rw [Finset.sum_congr rfl fun m hm => Finset.sum_congr rfl fun q _ => t m hm q, hcard]
  simp only [Finset.sum_const, Finset.card_univ, hcard, one_smul]
  rw [← Finset.mul_sum]
  push_cast
  field_simp

theorem exLam_eq (beta : ℝ) (hb : 0 < beta) (N : ℕ) :
    exLam beta N = beta / Real.pi ^ 2 * ∑ j ∈ Finset.range N, 1 / ((2 * j + 1 : ℕ) : ℝ) ^ 2 := by
  rw [exLam, sum_nu_eq beta hb, ← mul_assoc]
  congr 1
  have := Real.pi_ne_zero
  field_simp

/-- C138: the bound cannot be improved: free electrons at the Fermi energy with a constant attraction of strength one come arbitrarily
close. -/
theorem C138_sharp (beta : ℝ) (hb : 0 < beta) (r : ℝ) (h : r < beta * 1 / 8) : ∃ (N : ℕ) (lam : ℂ) (out : ℤ → L0 → Fin 1 → Fin 1 → ℂ),
    r < ‖lam‖ ∧ eliashbergProduct 1 N N (2 * N + 1) beta [(0 : L0)] (fun _ _ _ _ _ _ => -1) (exG beta N) (fun _ _ _ _ => 1) = .ok out ∧
      EigenGap N (fun _ _ _ _ => 1) out lam := by
  have lim := (odd_squares.tendsto_sum_nat).const_mul (beta / Real.pi ^ 2)
  have e : beta / Real.pi ^ 2 * (Real.pi ^ 2 / 8) = beta * 1 / 8 := by
    have := Real.pi_ne_zero
    field_simp
  rw [e] at lim
  obtain ⟨N, hN, h1⟩ := ((lim.eventually_const_lt h).and (Filter.eventually_gt_atTop 0)).exists
  rw [← exLam_eq beta hb] at hN
  obtain ⟨out, h2, h3⟩ := example_eigenvalue beta hb N h1
  refine ⟨N, _, out, ?_, h2, h3⟩
  rw [Complex.norm_real]
  exact hN.trans_le (le_abs_self _)

/-- the hypotheses of `C138_instability` hold in the example, with the vertex of size one -/
example (beta : ℝ) (hb : 0 < beta) : ‖(exLam beta 1 : ℂ)‖ ≤ beta * 1 / 8 ∧ (1 ≤ ‖(exLam beta 1 : ℂ)‖ → 8 * (1 / beta) ≤ 1) := by
  obtain ⟨out, hout, h⟩ := example_eigenvalue beta hb 1 one_pos
  exact C138_instability 1 1 one_pos one_pos 1 1 3 beta hb [(0 : L0)] L0_complete 0 rfl (fun _ => (0 : Matrix (Fin 1) (Fin 1) ℂ))
    (fun _ => Matrix.isHermitian_zero) (.local fun _ => 0) (fun _ _ => 0) (fun m k => SelfEnergyAt.loc _ m k)
    (fun _ _ _ => by simpa [damping] using Matrix.PosSemidef.zero) (fun _ _ _ => by simpa [damping] using Matrix.PosSemidef.zero)
    (fun _ _ _ _ _ _ => -1) (fun _ _ _ _ => 1) out 1 (fun _ _ _ => by simp [Steps.size4]) hout _ h

/-- the hypotheses of `C138_eigenvalue_fft`: the same gap and eigenvalue with the transforms of the code and its default time mesh -/
example (beta : ℝ) (hb : 0 < beta) : ‖(exLam beta 1 : ℂ)‖ ≤ beta * 1 / 8 := by
  have hT := C58_default_meshes beta hb 1 one_pos
  obtain ⟨out, hout, h⟩ := example_eigenvalue beta hb 1 one_pos
  rw [eliashbergProduct_ok one_pos le_rfl (by norm_num) beta L0_complete] at hout
  obtain ⟨out', h1, h2⟩ := C58_fft_value (o := Fin 1) one_pos le_rfl hT L0_complete (fun _ _ _ _ _ _ => 0) (fun _ _ _ _ _ => -1)
    (exG beta 1) (fun _ _ _ _ => 1) (Ng := 1)
  have hg : Causal beta 1 (exG beta 1) := C138_causal 1 one_pos 1 1 le_rfl beta hb [(0 : L0)] L0_complete 0 rfl
    (fun _ => (0 : Matrix (Fin 1) (Fin 1) ℂ)) (fun _ => Matrix.isHermitian_zero) (.local fun _ => 0) (fun _ _ => 0)
    (fun m k => SelfEnergyAt.loc _ m k) (fun _ _ _ => by simpa [damping] using Matrix.PosSemidef.zero)
    (fun _ _ _ => by simpa [damping] using Matrix.PosSemidef.zero)
  have ev : fullVertex 1 (fun (_ : ℤ) (_ : L0) (_ _ _ _ : Fin 1) => (0 : ℂ)) (fun _ _ _ _ _ => -1) = fun _ _ _ _ _ _ => -1 := by
    funext l q a b c x
    simp [fullVertex]
  refine C138_eigenvalue_fft 1 one_pos 1 1 1 6 le_rfl beta hb _ _ hT [(0 : L0)] L0_complete _ _ (exG beta 1) _
    out' hg 1 (fun _ _ _ => by simp [Steps.size4, vertexSum]) h1 _ ⟨fun m hm k a b => ?_, h.ne⟩
  rw [h2 m hm, ev, ← h.eq m hm k a b, ← Except.ok.inj hout]

end Example

end Verif.PairBound
