import Verif.Units.Props

/-!
# C126: unit and zero of energy of the Lindhard function, of the real time functions and of the Hubbard atom
-/

set_option linter.unusedSectionVars false

noncomputable section

namespace Verif.Units

open Verif.Parallel Verif.Fourier

section Lindhard

open Verif.Lindhard Verif.Bubble Matrix

variable {d : ℕ} {n : Fin d → ℕ} [∀ i, NeZero (n i)] {o : Type*} [Fintype o] [DecidableEq o]

theorem diag_smul {m : Matrix o o ℂ} {p : (o → ℝ) × Matrix o o ℂ} (h : Diag m p) (l : ℝ) :
    Diag ((l : ℂ) • m) (fun i => l * p.1 i, p.2) := by
  refine ⟨h.1, h.2.1, ?_⟩
  conv_lhs => rw [h.2.2]
  rw [← Matrix.smul_mul, ← Matrix.mul_smul]
  congr 2
  ext i j
  by_cases hij : i = j
  · subst hij; simp
  · simp [hij]

theorem diag_add {m : Matrix o o ℂ} {p : (o → ℝ) × Matrix o o ℂ} (h : Diag m p) (c : ℝ) :
    Diag (m + (c : ℂ) • 1) (fun i => p.1 i + c, p.2) := by
  refine ⟨h.1, h.2.1, ?_⟩
  have h1 : diagonal (fun i => ((p.1 i + c : ℝ) : ℂ)) = diagonal (fun i => (p.1 i : ℂ)) + (c : ℂ) • (1 : Matrix o o ℂ) := by
    ext i j
    by_cases hij : i = j
    · subst hij; simp
    · simp [hij]
  change _ = p.2 * diagonal (fun i => ((p.1 i + c : ℝ) : ℂ)) * p.2ᴴ
  rw [h1, Matrix.mul_add, Matrix.add_mul, ← h.2.2, Matrix.mul_smul, Matrix.smul_mul, Matrix.mul_one, h.2.1]

theorem affine_sub (l c mu : ℝ) (e : Matrix o o ℂ) :
    (l : ℂ) • e + (c : ℂ) • 1 - ((l * mu + c : ℝ) : ℂ) • (1 : Matrix o o ℂ) = (l : ℂ) • (e - (mu : ℂ) • 1) := by
  rw [smul_sub, smul_smul, Complex.ofReal_add, Complex.ofReal_mul, add_smul]
  abel

theorem affine_herm {e : Matrix o o ℂ} (h : e.IsHermitian) (l c : ℝ) : ((l : ℂ) • e + (c : ℂ) • 1).IsHermitian := by
  unfold Matrix.IsHermitian
  rw [conjTranspose_add, conjTranspose_smul, conjTranspose_smul, h.eq, conjTranspose_one]
  simp

theorem totalFactor_scale {l : ℝ} (hl : 0 < l) (tol beta : ℝ) (z : ℂ) (x y : ℝ) :
    totalFactor (l * tol) (beta / l) (l * z) (l * x) (l * y) = (l : ℂ)⁻¹ * totalFactor tol beta z x y := by
  have hl' : (l : ℂ) ≠ 0 := Complex.ofReal_ne_zero.2 hl.ne'
  have e1 : l * x * (beta / l) = x * beta := by field_simp
  have e2 : l * y * (beta / l) = y * beta := by field_simp
  have e3 : 0.5 * (beta / l) * (l * x) = 0.5 * beta * x := by field_simp
  have e4 : ‖(l : ℂ) * z‖ < l * tol ↔ ‖z‖ < tol := by
    rw [norm_mul, Complex.norm_real, Real.norm_of_nonneg hl.le, mul_lt_mul_iff_right₀ hl]
  have e5 : |l * y - l * x| < l * tol ↔ |y - x| < tol := by
    rw [← mul_sub, abs_mul, abs_of_pos hl, mul_lt_mul_iff_right₀ hl]
  unfold totalFactor
  simp only [e1, e2, e3, e4, e5]
  split_ifs
  · push_cast
    rw [div_div, mul_comm (l : ℂ), ← div_div, div_eq_inv_mul _ (l : ℂ)]
  · rw [← mul_sub]
    push_cast
    rw [← mul_add, div_eq_mul_inv, mul_inv, div_eq_mul_inv]
    ring

theorem dbl_scale (p q : (o → ℝ) × Matrix o o ℂ) (l : ℝ) (h : ℝ → ℝ → ℂ) :
    dbl (fun i => l * p.1 i, p.2) (fun i => l * q.1 i, q.2) h = dbl p q fun x y => h (l * x) (l * y) := rfl

theorem dbl_smul (p q : (o → ℝ) × Matrix o o ℂ) (a : ℂ) (h : ℝ → ℝ → ℂ) :
    dbl p q (fun x y => a * h x y) = a • dbl p q h := by
  funext i j r s
  simp only [dbl, Pi.smul_apply, smul_eq_mul, Finset.mul_sum]
  refine Finset.sum_congr rfl fun _ _ => Finset.sum_congr rfl fun _ _ => ?_
  ring

/-- C126: the Lindhard function is divided by the unit, if the tolerance for degenerate energies is given in that unit. The
diagonalisations of the two calculations may be different. -/
theorem C126_lindhard_partial {l : ℝ} (hl : 0 < l) (c : ℝ) (r r' : ℕ) (hr : 0 < r) (hr' : 0 < r') (eig eig' : Eig o)
    (hs : EigSpec eig) (hs' : EigSpec eig') (tol beta mu : ℝ) (kmesh : List (Lat n)) (hnd : kmesh.Nodup)
    (hall : ∀ k, k ∈ kmesh) (e : Lat n → Matrix o o ℂ) (he : ∀ k, (e k).IsHermitian) (z : ℂ) (q : Lat n) :
    lindhard r' eig' (l * tol) (beta / l) (l * mu + c) kmesh (affine (l : ℂ) (c : ℂ) e) (l * z) q
      = (l : ℂ)⁻¹ • lindhard r eig tol beta mu kmesh e z q := by
  rw [lindhard_eq r' hr' _ _ _ _ _ hnd hall, lindhard_eq r hr _ _ _ _ _ hnd hall, smul_comm]
  congr 1
  rw [Finset.smul_sum]
  refine Finset.sum_congr rfl fun k _ => ?_
  have hd : ∀ k, Diag ((l : ℂ) • (e k - (mu : ℂ) • 1)) (sys eig' (l * mu + c) (affine (l : ℂ) (c : ℂ) e) k) := by
    intro k
    have := sys_diag hs' (l * mu + c) (e := affine (l : ℂ) (c : ℂ) e) (fun k => affine_herm (he k) l c) k
    rwa [show affine (l : ℂ) (c : ℂ) e k - ((l * mu + c : ℝ) : ℂ) • (1 : Matrix o o ℂ) = (l : ℂ) • (e k - (mu : ℂ) • 1) from
      affine_sub l c mu (e k)] at this
  rw [dbl_unique (hd k) (diag_smul (sys_diag hs mu he k) l) (hd (k + q)) (diag_smul (sys_diag hs mu he (k + q)) l), dbl_scale]
  simp only [totalFactor_scale hl]
  exact dbl_smul _ _ _ _

/-- two momenta, energies `-x` and `x` -/
def twoLevel (x : ℝ) (k : Lat fun _ : Fin 1 => 2) : Matrix (Fin 1) (Fin 1) ℂ := fun _ _ => if k = 0 then -x else x

theorem twoLevel_herm (x : ℝ) (k : Lat fun _ : Fin 1 => 2) : (twoLevel x k).IsHermitian := by
  ext i j
  simp only [twoLevel, conjTranspose_apply]
  split_ifs <;> simp

theorem diag_one {m : Matrix (Fin 1) (Fin 1) ℂ} {x : ℝ} (h : m 0 0 = x) : Diag m (fun _ => x, 1) := by
  refine ⟨by simp, by simp, ?_⟩
  ext i j
  rw [Subsingleton.elim i 0, Subsingleton.elim j 0]
  simp [h]

theorem twoLevel_lindhard (r : ℕ) (hr : 0 < r) (eig : Eig (Fin 1)) (hs : EigSpec eig) (tol beta x : ℝ)
    (kmesh : List (Lat fun _ : Fin 1 => 2)) (hnd : kmesh.Nodup) (hall : ∀ k, k ∈ kmesh) :
    lindhard r eig tol beta 0 kmesh (twoLevel x) 0 1 0 0 0 0
      = (2 : ℂ)⁻¹ * (totalFactor tol beta 0 (-x) x + totalFactor tol beta 0 x (-x)) := by
  rw [lindhard_eq r hr _ _ _ _ _ hnd hall]
  have hcard : (Fintype.card (Lat fun _ : Fin 1 => 2) : ℂ) = 2 := by
    rw [Fintype.card_pi]
    simp
  have huniv : (Finset.univ : Finset (Lat fun _ : Fin 1 => 2)) = {0, 1} := by decide
  have h01 : (0 : Lat fun _ : Fin 1 => 2) ≠ 1 := by decide
  have h2 : (1 : Lat fun _ : Fin 1 => 2) + 1 = 0 := by decide
  have hD0 : Diag (twoLevel x 0 - ((0 : ℝ) : ℂ) • 1) (fun _ => -x, 1) := diag_one (by simp [twoLevel])
  have hD1 : Diag (twoLevel x 1 - ((0 : ℝ) : ℂ) • 1) (fun _ => x, 1) := diag_one (by simp [twoLevel])
  simp only [Pi.smul_apply, Finset.sum_apply, smul_eq_mul]
  rw [hcard, huniv, Finset.sum_pair h01, zero_add, h2,
    dbl_unique (sys_diag hs 0 (twoLevel_herm x) 0) hD0 (sys_diag hs 0 (twoLevel_herm x) 1) hD1,
    dbl_unique (sys_diag hs 0 (twoLevel_herm x) 1) hD1 (sys_diag hs 0 (twoLevel_herm x) 0) hD0]
  simp [dbl]

theorem fermi_sub (x : ℝ) : fermi (-x) - fermi x = Real.tanh (x / 2) := by
  have h1 : ∀ y, fermi y = 1 / (Real.exp y + 1) := by
    intro y
    unfold fermi
    split_ifs
    · rfl
    · dsimp only
      rw [Real.exp_neg, div_eq_div_iff (by positivity) (by positivity)]
      have := Real.exp_pos y
      field_simp
  rw [h1, h1, Real.tanh_eq_sinh_div_cosh, Real.sinh_eq, Real.cosh_eq]
  have hp := Real.exp_pos (x / 2)
  have e1 : Real.exp x = Real.exp (x / 2) ^ 2 := by rw [← Real.exp_nat_mul]; congr 1; push_cast; ring
  have e2 : Real.exp (-x) = (Real.exp (x / 2) ^ 2)⁻¹ := by rw [Real.exp_neg, e1]
  have e3 : Real.exp (-(x / 2)) = (Real.exp (x / 2))⁻¹ := Real.exp_neg _
  rw [e2, e1, e3]
  field_simp
  ring

/-- C126: the tolerance of the code is the number `1e-10` whatever the unit (`/repo/c++/triqs_tprf/lattice/lindhard_chi00.cpp:70`).
For every fixed positive tolerance there is a band structure, at temperature one, whose static susceptibility is not divided by
the unit when the unit is changed by a factor of four. -/
theorem C126_lindhard_violated (r : ℕ) (hr : 0 < r) (eig : Eig (Fin 1)) (hs : EigSpec eig) {tol : ℝ} (ht : 0 < tol)
    (kmesh : List (Lat fun _ : Fin 1 => 2)) (hnd : kmesh.Nodup) (hall : ∀ k, k ∈ kmesh) :
    ∃ e : (Lat fun _ : Fin 1 => 2) → Matrix (Fin 1) (Fin 1) ℂ, (∀ k, (e k).IsHermitian) ∧
      lindhard r eig tol (1 / (1 / 4 : ℝ)) ((1 / 4 : ℝ) * 0 + 0) kmesh (affine ((1 / 4 : ℝ) : ℂ) ((0 : ℝ) : ℂ) e)
          (((1 / 4 : ℝ) : ℂ) * 0) 1 0 0 0 0
        ≠ ((1 / 4 : ℝ) : ℂ)⁻¹ * lindhard r eig tol 1 0 kmesh e 0 1 0 0 0 0 := by
  refine ⟨twoLevel tol, twoLevel_herm tol, ?_⟩
  have haff : affine ((1 / 4 : ℝ) : ℂ) ((0 : ℝ) : ℂ) (twoLevel tol) = twoLevel (tol / 4) := by
    funext k
    ext i j
    rw [Subsingleton.elim i j]
    simp only [affine, twoLevel, Matrix.add_apply, Matrix.smul_apply, smul_eq_mul]
    split_ifs <;> push_cast <;> ring
  rw [haff, mul_zero, mul_zero, add_zero, twoLevel_lindhard r hr eig hs _ _ _ _ hnd hall,
    twoLevel_lindhard r hr eig hs _ _ _ _ hnd hall]
  have hsm : ∀ b x y : ℝ, |y - x| < tol → totalFactor tol b 0 x y = ((b / (4 * Real.cosh (0.5 * b * x) * Real.cosh (0.5 * b * x)) : ℝ) : ℂ) := by
    intro b x y h
    unfold totalFactor
    dsimp only
    rw [if_pos ⟨by simpa using ht, h⟩]
  have hbg : ∀ b x y : ℝ, ¬ |y - x| < tol → totalFactor tol b 0 x y = (((fermi (x * b) - fermi (y * b)) / (y - x) : ℝ) : ℂ) := by
    intro b x y h
    unfold totalFactor
    dsimp only
    rw [if_neg fun h' => h h'.2, zero_add, Complex.ofReal_div]
  rw [hsm _ _ _ (by rw [abs_lt]; constructor <;> linarith), hsm _ _ _ (by rw [abs_lt]; constructor <;> linarith),
    hbg _ _ _ (by rw [not_lt, abs_of_pos (by linarith)]; linarith),
    hbg _ _ _ (by rw [not_lt, abs_of_neg (by linarith)]; linarith)]
  intro h
  have hc : Real.cosh (0.5 * (1 / (1 / 4)) * -(tol / 4)) = Real.cosh (tol / 2) := by
    rw [← Real.cosh_neg]; congr 1; ring
  have hc' : Real.cosh (0.5 * (1 / (1 / 4)) * (tol / 4)) = Real.cosh (tol / 2) := by congr 1; ring
  rw [hc, hc', mul_one, mul_one, fermi_sub, show fermi tol - fermi (-tol) = -Real.tanh (tol / 2) by rw [← fermi_sub]; ring] at h
  have h' : (1 / (1 / 4) : ℝ) / (4 * Real.cosh (tol / 2) * Real.cosh (tol / 2))
      = 4 * (Real.tanh (tol / 2) / (tol - -tol)) := by
    have h2 : (((1 / (1 / 4) : ℝ) / (4 * Real.cosh (tol / 2) * Real.cosh (tol / 2)) : ℝ) : ℂ)
        = ((4 * (Real.tanh (tol / 2) / (tol - -tol)) : ℝ) : ℂ) := by
      have e1 : -Real.tanh (tol / 2) / (-tol - tol) = Real.tanh (tol / 2) / (tol - -tol) := by
        rw [← neg_div_neg_eq]; congr 1 <;> ring
      rw [e1] at h
      have h3 := h
      push_cast at h3 ⊢
      linear_combination h3
    exact Complex.ofReal_injective h2
  have hcp := Real.cosh_pos (tol / 2)
  rw [Real.tanh_eq_sinh_div_cosh] at h'
  field_simp at h'
  have hd : Real.sinh tol = 2 * Real.sinh (tol / 2) * Real.cosh (tol / 2) := by
    rw [← Real.sinh_two_mul]; congr 1; ring
  have hlt := Real.self_lt_sinh_iff.2 ht
  nlinarith [h', hd, hlt]

/-- C126: the lesser and greater functions of real time depend on the product of energy and time only. They know no chemical
potential: it is the zero of energy. -/
theorem C126_real_time {l : ℝ} (hl : l ≠ 0) (r : ℕ) (eig eig' : Eig o) (hs : EigSpec eig) (hs' : EigSpec eig') (beta : ℝ)
    (kmesh : List (Lat n)) (e : Lat n → Matrix o o ℂ) (he : ∀ k, (e k).IsHermitian) (k : Lat n) (T : ℝ) :
    g0TkLes r eig' (beta / l) kmesh (fun k => (l : ℂ) • e k) k (T / l) = g0TkLes r eig beta kmesh e k T ∧
      g0TkGtr r eig' (beta / l) kmesh (fun k => (l : ℂ) • e k) k (T / l) = g0TkGtr r eig beta kmesh e k T := by
  have key : ∀ (w : ℝ → ℂ) (k : Lat n) (T : ℝ), g0T eig' (beta / l) w ((l : ℂ) • e k) (T / l) = g0T eig beta w (e k) T := by
    intro w k T
    have hh : ((l : ℂ) • e k).IsHermitian := by
      have := affine_herm (he k) l 0
      rwa [Complex.ofReal_zero, zero_smul, add_zero] at this
    have h1 : ∀ (ei : Eig o) (b : ℝ) (m : Matrix o o ℂ) (t : ℝ) (a a' : o), g0T ei b w m t a a'
        = matFun (ei m) (fun x => w (fermi (b * x)) * Complex.exp (-Complex.I * x * t)) a a' := by
      intro ei b m t a a'
      rw [matFun_apply]
      rfl
    have hD : Diag ((l : ℂ) • e k) (fun i => l * (eig (e k)).1 i, (eig (e k)).2) := diag_smul (hs (e k) (he k)) l
    funext a a'
    rw [h1, h1, matFun_unique (hs' _ hh) hD, matFun_apply, matFun_apply]
    refine Finset.sum_congr rfl fun i _ => ?_
    congr 3
    · congr 1
      field_simp
    · congr 1
      push_cast
      have : (l : ℂ) ≠ 0 := Complex.ofReal_ne_zero.2 hl
      field_simp
  have hrank : ∀ (f g : Lat n → ℝ → o → o → ℂ), (∀ k T, f k (T / l) = g k T) → ∀ k T,
      distributedAssign r kmesh f k (T / l) = distributedAssign r kmesh g k T := by
    intro f g hfg k T
    have hfold : ∀ (arr : List (Lat n)) (u v : Lat n → ℝ → o → o → ℂ), (∀ k T, u k (T / l) = v k T) → ∀ k T,
        arr.foldl (fun out p => Function.update out p (f p)) u k (T / l)
          = arr.foldl (fun out p => Function.update out p (g p)) v k T := by
      intro arr
      induction arr with
      | nil => intro u v h k T; exact h k T
      | cons a arr ih =>
        intro u v h k T
        rw [List.foldl_cons, List.foldl_cons]
        refine ih _ _ (fun k T => ?_) k T
        by_cases hk : k = a
        · subst hk; simp only [Function.update_self]; exact hfg k T
        · simp only [Function.update_of_ne hk]; exact h k T
    simp only [distributedAssign, allReduce, Finset.sum_apply]
    exact Finset.sum_congr rfl fun i _ => hfold _ _ _ (fun _ _ => rfl) k T
  exact ⟨hrank _ _ (fun k T => key _ k T) k T, hrank _ _ (fun k T => key _ k T) k T⟩

end Lindhard

/-! ## Hubbard atom -/

section Atom

open Verif.HubbardAtom Complex

variable {l : ℝ}

theorem iv_scale (beta : ℝ) (m : ℤ) : iv (beta / l) m = l * iv beta m := by
  unfold iv
  rw [div_div_eq_mul_div]
  push_cast
  ring

theorem iw_scale (beta : ℝ) (m : ℤ) : iw (beta / l) m = l * iw beta m := by
  unfold iw
  rw [div_div_eq_mul_div]
  push_cast
  ring

theorem csqrt_scale (hl : 0 < l) (z : ℂ) : csqrt (l * z) = (Real.sqrt l : ℂ) * csqrt z := by
  unfold csqrt
  have hl' : (l : ℂ) ≠ 0 := ofReal_ne_zero.2 hl.ne'
  by_cases hz : z = 0
  · rw [hz, mul_zero, zero_cpow (by norm_num), mul_zero]
  · rw [cpow_def_of_ne_zero (mul_ne_zero hl' hz), cpow_def_of_ne_zero hz, log_ofReal_mul hl hz, add_mul, Complex.exp_add]
    congr 1
    rw [Real.sqrt_eq_rpow, Real.rpow_def_of_pos hl]
    push_cast
    rfl

theorem cA_scale (U : ℝ) : cA (l * U) = l * cA U := by unfold cA; push_cast; ring

theorem expo (hl : l ≠ 0) (beta U : ℝ) : beta / l * (l * U) = beta * U := by field_simp

theorem cB_scale (hl : l ≠ 0) (beta U : ℝ) : cB (beta / l) (l * U) = l * cB beta U := by
  unfold cB
  rw [expo hl]
  push_cast
  ring

theorem cC_scale (hl : l ≠ 0) (beta U : ℝ) (m : ℤ) : cC (beta / l) (l * U) m = cC beta U m := by
  unfold cC
  rw [neg_mul (beta / l), expo hl, ← neg_mul]

theorem cD_scale (hl : l ≠ 0) (beta U : ℝ) (m : ℤ) : cD (beta / l) (l * U) m = l ^ 2 * cD beta U m := by
  unfold cD
  rw [cC_scale hl]
  push_cast
  ring

theorem den_scale (U : ℝ) (x w : ℂ) : den (l * U) (l * x) (l * w) = l ^ 4 * den U x w := by
  unfold den
  push_cast
  ring

theorem a0_scale (hl : l ≠ 0) (beta U : ℝ) (x w : ℂ) :
    a0 (beta / l) (l * U) (l * x) (l * w) = (l : ℂ)⁻¹ ^ 3 * a0 beta U x w := by
  have hl' : (l : ℂ) ≠ 0 := ofReal_ne_zero.2 hl
  unfold a0
  rw [den_scale, cA_scale, div_eq_mul_inv, mul_inv]
  push_cast
  field_simp

theorem b0_scale (hl : l ≠ 0) (beta U : ℝ) (x w : ℂ) :
    b0 (beta / l) (l * U) (l * x) (l * w) = (l : ℂ)⁻¹ ^ 3 * b0 beta U x w := by
  have hl' : (l : ℂ) ≠ 0 := ofReal_ne_zero.2 hl
  unfold b0
  rw [den_scale, cB_scale hl, div_eq_mul_inv, mul_inv]
  push_cast
  field_simp

theorem sqrt_sq (hl : 0 < l) : (Real.sqrt l : ℂ) * (Real.sqrt l : ℂ) = l := by
  rw [← ofReal_mul, Real.mul_self_sqrt hl.le]

theorem b1_scale (hl : 0 < l) (beta U : ℝ) (m : ℤ) (x w : ℂ) :
    b1 (beta / l) (l * U) m (l * x) (l * w) = (Real.sqrt l : ℂ) * (l : ℂ)⁻¹ ^ 2 * b1 beta U m x w := by
  have hl' : (l : ℂ) ≠ 0 := ofReal_ne_zero.2 hl.ne'
  unfold b1
  rw [den_scale, cC_scale hl.ne', cD_scale hl.ne', ofReal_mul, mul_assoc (l : ℂ), csqrt_scale hl, div_eq_mul_inv, mul_inv]
  field_simp

theorem b2_scale (hl : 0 < l) (beta U : ℝ) (m : ℤ) (x w : ℂ) :
    b2 (beta / l) (l * U) m (l * x) (l * w) = (Real.sqrt l : ℂ) * (l : ℂ)⁻¹ ^ 2 * b2 beta U m x w := by
  have hl' : (l : ℂ) ≠ 0 := ofReal_ne_zero.2 hl.ne'
  unfold b2
  have h1 : l * U * (l * U) * (l * U) * 0.25 = l ^ 2 * (l * (U * U * U * 0.25)) := by ring
  have h2 : ((l * U : ℝ) : ℂ) * ((l * U : ℝ) : ℂ) / (1 - cC beta U m) - l * w * (l * w)
      = l * (l * (U * U / (1 - cC beta U m) - w * w)) := by
    push_cast
    ring
  rw [den_scale, cC_scale hl.ne', h1, h2, csqrt_scale hl, csqrt_scale hl, Real.sqrt_mul (by positivity), Real.sqrt_sq hl.le,
    Real.sqrt_mul hl.le, div_eq_mul_inv, mul_inv]
  push_cast
  rw [show ∀ a b c d e f : ℂ, I * (a * (b * c)) * (b * (b * d)) * (e * f) = b * (b * b) * a * e * (I * c * d * f) from
    fun _ _ _ _ _ _ => by ring, sqrt_sq hl]
  field_simp

/-- C126: the Green's function and the susceptibility of the Hubbard atom. -/
theorem C126_atom (hl : 0 < l) (beta U : ℝ) (m n1 n2 : ℤ) :
    g (beta / l) (l * U) n1 = (l : ℂ)⁻¹ * g beta U n1 ∧
      chi (beta / l) (l * U) m n1 n2 = (l : ℂ)⁻¹ ^ 3 * chi beta U m n1 n2 ∧
      chi0 (beta / l) (l * U) m n1 n2 = (l : ℂ)⁻¹ ^ 3 * chi0 beta U m n1 n2 ∧
      chiStatic (beta / l) (l * U) = l⁻¹ * chiStatic beta U := by
  have hl' : (l : ℂ) ≠ 0 := ofReal_ne_zero.2 hl.ne'
  have hg : ∀ k, g (beta / l) (l * U) k = (l : ℂ)⁻¹ * g beta U k := by
    intro k
    unfold g
    rw [iv_scale, one_div, one_div, ← mul_inv]
    congr 1
    push_cast
    have : (l : ℂ) * U * (l * U) / (4 * (l * iv beta k)) = l * (U * U / (4 * iv beta k)) := by
      rw [show (4 : ℂ) * (l * iv beta k) = l * (4 * iv beta k) by ring, show (l : ℂ) * U * (l * U) = l * (l * (U * U)) by ring,
        mul_div_mul_left _ _ hl', mul_div_assoc]
    rw [this]
    ring
  refine ⟨hg n1, ?_, ?_, ?_⟩
  · unfold chi
    dsimp only
    simp only [iv_scale, iw_scale, a0_scale hl.ne', b0_scale hl.ne', b1_scale hl, b2_scale hl]
    have h := sqrt_sq hl
    have h3 : (Real.sqrt l : ℂ) * (l : ℂ)⁻¹ ^ 2 * ((Real.sqrt l : ℂ) * (l : ℂ)⁻¹ ^ 2) = (l : ℂ)⁻¹ ^ 3 := by
      rw [mul_mul_mul_comm, h]
      field_simp
    rw [mul_mul_mul_comm _ (b1 _ _ _ _ _), mul_mul_mul_comm _ (b2 _ _ _ _ _), h3]
    ring
  · unfold chi0
    simp only [FreqConv.chi0PH, hg]
    push_cast
    ring
  · unfold chiStatic
    dsimp only
    rw [show -(beta / l) * 0.5 * (l * U) = -beta * 0.5 * U by field_simp]
    ring

theorem va0_scale (hl : l ≠ 0) (beta U : ℝ) (x w : ℂ) :
    va0 (beta / l) (l * U) (l * x) (l * w) = l * va0 beta U x w := by
  have hl' : (l : ℂ) ≠ 0 := ofReal_ne_zero.2 hl
  unfold va0
  rw [den_scale, cA_scale, show (-((l : ℂ) * x) * (l * x + l * w) - l * cA U * (l * cA U)) * (-(l * x) * (l * x + l * w))
    = l ^ 4 * ((-x * (x + w) - cA U * cA U) * (-x * (x + w))) by ring, div_eq_mul_inv, mul_inv]
  push_cast
  field_simp

theorem vb0_scale (hl : l ≠ 0) (beta U : ℝ) (x w : ℂ) :
    vb0 (beta / l) (l * U) (l * x) (l * w) = l * vb0 beta U x w := by
  have hl' : (l : ℂ) ≠ 0 := ofReal_ne_zero.2 hl
  unfold vb0
  rw [den_scale, cB_scale hl, show (-((l : ℂ) * x) * (l * x + l * w) - l * cB beta U * (l * cB beta U)) * (-(l * x) * (l * x + l * w))
    = l ^ 4 * ((-x * (x + w) - cB beta U * cB beta U) * (-x * (x + w))) by ring, div_eq_mul_inv, mul_inv]
  push_cast
  field_simp

theorem vDen_scale (hl : 0 < l) (beta U : ℝ) (w : ℂ) : vDen (beta / l) (l * U) (l * w) = vDen beta U w := by
  have hl' : (l : ℂ) ≠ 0 := ofReal_ne_zero.2 hl.ne'
  unfold vDen
  dsimp only
  rw [cB_scale hl.ne', show 4 * ((l : ℂ) * cB beta U) * (l * cB beta U) - l * w * (l * w)
    = l * (l * (4 * cB beta U * cB beta U - w * w)) by ring, csqrt_scale hl, csqrt_scale hl, ← mul_assoc, sqrt_sq hl,
    ofReal_mul, mul_assoc (l : ℂ), mul_div_mul_left _ _ hl']
  congr 4
  push_cast
  field_simp

theorem vD_scale (hl : 0 < l) (beta U : ℝ) (w : ℂ) : vD (beta / l) (l * U) (l * w) = l ^ 5 * vD beta U w := by
  have hl' : (l : ℂ) ≠ 0 := ofReal_ne_zero.2 hl.ne'
  unfold vD
  rw [vDen_scale hl, cB_scale hl.ne', ← mul_div_assoc]
  congr 1
  have : 4 * ((l : ℂ) * cB beta U) * (l * cB beta U) / (((l * U : ℝ) : ℂ) * ((l * U : ℝ) : ℂ))
      = 4 * cB beta U * cB beta U / (U * U) := by
    push_cast
    rw [show 4 * ((l : ℂ) * cB beta U) * (l * cB beta U) = (l * l) * (4 * cB beta U * cB beta U) by ring,
      show (l : ℂ) * U * (l * U) = (l * l) * (U * U) by ring, mul_div_mul_left _ _ (mul_ne_zero hl' hl')]
  rw [this]
  push_cast
  ring

/-- C126: the vertex of the Hubbard atom is multiplied with the third power of the unit. -/
theorem C126_atom_vertex (hl : 0 < l) (beta U : ℝ) (m n1 n2 : ℤ) :
    gamma (beta / l) (l * U) m n1 n2 = (l : ℂ) ^ 3 * gamma beta U m n1 n2 := by
  have hl' : (l : ℂ) ≠ 0 := ofReal_ne_zero.2 hl.ne'
  have hden : ∀ x w : ℂ, -((l : ℂ) * x) * (l * x + l * w) - cB (beta / l) (l * U) * cB (beta / l) (l * U)
      = l ^ 2 * (-x * (x + w) - cB beta U * cB beta U) := by
    intro x w
    rw [cB_scale hl.ne']
    ring
  have hpre : -1 / ((beta / l : ℝ) : ℂ) / ((beta / l : ℝ) : ℂ) = l ^ 2 * (-1 / (beta : ℂ) / (beta : ℂ)) := by
    push_cast
    rw [div_div_eq_mul_div, div_div_eq_mul_div]
    ring
  have hv : ∀ v a b : ℂ, (l : ℂ) ^ 5 * v / (l ^ 2 * a) / (l ^ 2 * b) = l * (v / a / b) := by
    intro v a b
    rw [div_div, div_div, show (l : ℂ) ^ 2 * a * (l ^ 2 * b) = l ^ 4 * (a * b) by ring, show (l : ℂ) ^ 5 * v = l ^ 4 * (l * v) by ring,
      mul_div_mul_left _ _ (pow_ne_zero 4 hl'), mul_div_assoc]
  unfold gamma
  dsimp only
  simp only [iv_scale, iw_scale, va0_scale hl.ne', vb0_scale hl.ne', hden, vD_scale hl, hpre, hv]
  push_cast
  ring

end Atom

end Verif.Units
