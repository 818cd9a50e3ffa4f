import Verif.PairBound.Props
import Verif.Lindhard.Props
import Verif.HartreeFock.SolverProps

/-!
# C139: at Matsubara frequencies the Lindhard bubble is bounded by one over four temperatures, so the RPA needs an interaction of
four temperatures to become unstable

Theorems about the models of `lindhard_chi00` (`Verif.Lindhard`) and `solve_rpa_PH` (`Verif.Rpa`).
-/

set_option linter.unusedSectionVars false

noncomputable section

namespace Verif.RpaBound

open Matrix Complex Verif.Unique Verif.Stable Verif.Fourier Verif.Lindhard Verif.Rpa Verif.PairBound

/-! ## The weight of a pair of levels -/

theorem fermi_eq (beta x : ℝ) : fermi (x * beta) = HartreeFock.fermi beta x := by
  rw [C20_fermi, HartreeFock.fermi, mul_comm]

/-- on the imaginary axis no pair of levels has a weight above `β/4` -/
theorem weight_le (tol beta : ℝ) (hb : 0 < beta) (z : ℂ) (hz : z.re = 0) (x y : ℝ) :
    ‖totalFactor tol beta z x y‖ ≤ beta / 4 := by
  unfold totalFactor
  dsimp only
  split_ifs with h
  · have h1 := Real.one_le_cosh (0.5 * beta * x)
    have h2 : (1 : ℝ) ≤ Real.cosh (0.5 * beta * x) * Real.cosh (0.5 * beta * x) := by nlinarith
    rw [Complex.norm_real, Real.norm_eq_abs, abs_of_pos (by positivity), mul_assoc]
    exact div_le_div_of_nonneg_left hb.le (by norm_num) (by linarith)
  · rw [fermi_eq, fermi_eq, norm_div, Complex.norm_real, Real.norm_eq_abs]
    have h1 := HartreeFock.fermi_lipschitz beta hb.le x y
    have h2 : |y - x| ≤ ‖z + ((y - x : ℝ) : ℂ)‖ := by
      have := Complex.abs_re_le_norm (z + ((y - x : ℝ) : ℂ))
      rwa [Complex.add_re, hz, zero_add, Complex.ofReal_re] at this
    have h3 : |HartreeFock.fermi beta x - HartreeFock.fermi beta y| ≤ beta / 4 * ‖z + ((y - x : ℝ) : ℂ)‖ := by
      rw [abs_sub_comm] at h2
      exact h1.trans (mul_le_mul_of_nonneg_left h2 (by positivity))
    rcases (norm_nonneg (z + ((y - x : ℝ) : ℂ))).eq_or_lt with h0 | h0
    · rw [← h0, div_zero]
      positivity
    · rwa [div_le_iff₀ h0]

/-! ## The bubble as a map of orbital pairs -/

section Pairs

variable {o : Type*} [Fintype o] [DecidableEq o]

/-- a tensor applied to a table of orbital pairs -/
def act (t : T4 o ℂ) (v : Matrix o o ℂ) : Matrix o o ℂ := Matrix.of fun a b => ∑ c, ∑ x, t a b c x * v c x

theorem size_unitary_left {U : Matrix o o ℂ} (h : Uᴴ * U = 1) (X : Matrix o o ℂ) : size (U * X) = size X := by
  unfold size
  rw [← ip_self, ← ip_self, ip_eq_trace, ip_eq_trace, Matrix.conjTranspose_mul, Matrix.mul_assoc, ← Matrix.mul_assoc Uᴴ, h,
    Matrix.one_mul]

theorem size_unitary_right {U : Matrix o o ℂ} (h : U * Uᴴ = 1) (X : Matrix o o ℂ) : size (X * U) = size X := by
  have h1 := size_unitary_left (U := Uᴴ) (by rwa [Matrix.conjTranspose_conjTranspose]) Xᴴ
  rwa [← Matrix.conjTranspose_mul, size_conj, size_conj] at h1

theorem act_dbl (p q : (o → ℝ) × Matrix o o ℂ) (h : ℝ → ℝ → ℂ) (v : Matrix o o ℂ) :
    act (dbl p q h) v = p.2 * (Matrix.of fun i j => h (p.1 i) (q.1 j) * (p.2ᴴ * vᵀ * q.2) i j) * q.2ᴴ := by
  ext a b
  simp only [act, Matrix.of_apply, Matrix.mul_apply, dbl, Matrix.transpose_apply, Finset.sum_mul, Finset.mul_sum]
  calc ∑ c, ∑ x, ∑ i, ∑ j, p.2 a i * p.2ᴴ i x * q.2 c j * q.2ᴴ j b * h (p.1 i) (q.1 j) * v c x
      = ∑ c, ∑ i, ∑ x, ∑ j, p.2 a i * p.2ᴴ i x * q.2 c j * q.2ᴴ j b * h (p.1 i) (q.1 j) * v c x :=
        Finset.sum_congr rfl fun c _ => Finset.sum_comm
    _ = ∑ i, ∑ c, ∑ x, ∑ j, p.2 a i * p.2ᴴ i x * q.2 c j * q.2ᴴ j b * h (p.1 i) (q.1 j) * v c x := Finset.sum_comm
    _ = ∑ i, ∑ c, ∑ j, ∑ x, p.2 a i * p.2ᴴ i x * q.2 c j * q.2ᴴ j b * h (p.1 i) (q.1 j) * v c x :=
        Finset.sum_congr rfl fun i _ => Finset.sum_congr rfl fun c _ => Finset.sum_comm
    _ = ∑ i, ∑ j, ∑ c, ∑ x, p.2 a i * p.2ᴴ i x * q.2 c j * q.2ᴴ j b * h (p.1 i) (q.1 j) * v c x :=
        Finset.sum_congr rfl fun i _ => Finset.sum_comm
    _ = ∑ j, ∑ i, ∑ c, ∑ x, p.2 a i * p.2ᴴ i x * q.2 c j * q.2ᴴ j b * h (p.1 i) (q.1 j) * v c x := Finset.sum_comm
    _ = _ := by
      refine Finset.sum_congr rfl fun j _ => Finset.sum_congr rfl fun i _ => Finset.sum_congr rfl fun c _ =>
        Finset.sum_congr rfl fun x _ => ?_
      ring

theorem size_hadamard {r : ℝ} (hr : 0 ≤ r) (f : o → o → ℂ) (hf : ∀ i j, ‖f i j‖ ≤ r) (w : Matrix o o ℂ) :
    size (Matrix.of fun i j => f i j * w i j) ≤ r * size w := by
  have h : size2 (Matrix.of fun i j => f i j * w i j) ≤ (r * size w) ^ 2 := by
    rw [mul_pow, size_sq]
    unfold size2
    rw [Finset.mul_sum]
    refine Finset.sum_le_sum fun i _ => ?_
    rw [Finset.mul_sum]
    refine Finset.sum_le_sum fun j _ => ?_
    rw [Matrix.of_apply, norm_mul, mul_pow]
    exact mul_le_mul_of_nonneg_right (pow_le_pow_left₀ (norm_nonneg _) (hf i j) 2) (sq_nonneg _)
  exact Real.sqrt_le_iff.2 ⟨mul_nonneg hr (size_nonneg _), h⟩

theorem size_act_dbl {m m' : Matrix o o ℂ} {p q : (o → ℝ) × Matrix o o ℂ} (hp : Diag m p) (hq : Diag m' q) {r : ℝ} (hr : 0 ≤ r)
    (h : ℝ → ℝ → ℂ) (hh : ∀ x y, ‖h x y‖ ≤ r) (v : Matrix o o ℂ) : size (act (dbl p q h) v) ≤ r * size v := by
  have hq' : q.2ᴴ * q.2ᴴᴴ = 1 := by rw [Matrix.conjTranspose_conjTranspose]; exact hq.1
  have hp' : p.2ᴴᴴ * p.2ᴴ = 1 := by rw [Matrix.conjTranspose_conjTranspose]; exact hp.2.1
  rw [act_dbl, size_unitary_right hq', size_unitary_left hp.1]
  refine (size_hadamard hr _ (fun i j => hh _ _) _).trans (le_of_eq ?_)
  rw [size_unitary_right hq.2.1, size_unitary_left hp', size_transpose]

theorem act_smul (z : ℂ) (t : T4 o ℂ) (v : Matrix o o ℂ) : act (z • t) v = z • act t v := by
  ext a b
  simp only [act, Matrix.of_apply, Matrix.smul_apply, Pi.smul_apply, smul_eq_mul, Finset.mul_sum, mul_assoc]

theorem act_sum {ι : Type*} (s : Finset ι) (t : ι → T4 o ℂ) (v : Matrix o o ℂ) : act (∑ i ∈ s, t i) v = ∑ i ∈ s, act (t i) v := by
  ext a b
  simp only [act, Matrix.of_apply, Matrix.sum_apply, Finset.sum_apply, Finset.sum_mul]
  refine (Finset.sum_congr rfl fun c _ => Finset.sum_comm).trans Finset.sum_comm

/-- no element is larger than the map -/
theorem le_of_act {t : T4 o ℂ} {r : ℝ} (h : ∀ v, size (act t v) ≤ r * size v) (a b c x : o) : ‖t a b c x‖ ≤ r := by
  have h1 := h (Matrix.single c x 1)
  have e1 : size (Matrix.single c x (1 : ℂ)) = 1 := by
    have : size2 (Matrix.single c x (1 : ℂ)) = 1 := by
      unfold size2
      rw [Finset.sum_eq_single c, Finset.sum_eq_single x]
      · simp
      · intro y _ hy
        simp [hy.symm]
      · simp
      · intro y _ hy
        refine Finset.sum_eq_zero fun y' _ => ?_
        simp [hy.symm]
      · simp
    rw [size, this, Real.sqrt_one]
  have e2 : act t (Matrix.single c x 1) a b = t a b c x := by
    rw [act, Matrix.of_apply, Finset.sum_eq_single c, Finset.sum_eq_single x]
    · simp
    · intro y _ hy
      simp [hy.symm]
    · simp
    · intro y _ hy
      refine Finset.sum_eq_zero fun y' _ => ?_
      simp [hy.symm]
    · simp
  have e3 : ‖act t (Matrix.single c x 1) a b‖ ≤ size (act t (Matrix.single c x 1)) := by
    refine Real.le_sqrt_of_sq_le ?_
    unfold size2
    refine (Finset.single_le_sum (f := fun b => ‖act t (Matrix.single c x 1) a b‖ ^ 2) (fun _ _ => sq_nonneg _) (Finset.mem_univ b)).trans ?_
    exact Finset.single_le_sum (f := fun a => ∑ b, ‖act t (Matrix.single c x 1) a b‖ ^ 2)
      (fun _ _ => Finset.sum_nonneg fun _ _ => sq_nonneg _) (Finset.mem_univ a)
  rw [e1, mul_one] at h1
  rw [← e2]
  exact e3.trans h1

theorem size_act (t : T4 o ℂ) (v : Matrix o o ℂ) : size (act t v) ≤ Steps.size4 t * size v := by
  have h : ∀ a b, ‖act t v a b‖ ^ 2 ≤ (∑ c, ∑ x, ‖t a b c x‖ ^ 2) * size2 v := by
    intro a b
    have e1 : ‖act t v a b‖ ≤ ∑ p : o × o, ‖t a b p.1 p.2‖ * ‖v p.1 p.2‖ := by
      rw [act, Matrix.of_apply, Fintype.sum_prod_type]
      refine (norm_sum_le _ _).trans (Finset.sum_le_sum fun c _ => (norm_sum_le _ _).trans (Finset.sum_le_sum fun x _ => ?_))
      rw [norm_mul]
    have e2 := Finset.sum_mul_sq_le_sq_mul_sq Finset.univ (fun p : o × o => ‖t a b p.1 p.2‖) (fun p => ‖v p.1 p.2‖)
    rw [Fintype.sum_prod_type (f := fun p : o × o => ‖t a b p.1 p.2‖ ^ 2),
      Fintype.sum_prod_type (f := fun p : o × o => ‖v p.1 p.2‖ ^ 2)] at e2
    exact (pow_le_pow_left₀ (norm_nonneg _) e1 2).trans e2
  have h2 : size2 (act t v) ≤ (Steps.size4 t * size v) ^ 2 := by
    rw [mul_pow, size_sq, Steps.size4,
      Real.sq_sqrt (Finset.sum_nonneg fun _ _ => Finset.sum_nonneg fun _ _ => Finset.sum_nonneg fun _ _ =>
        Finset.sum_nonneg fun _ _ => sq_nonneg _)]
    refine (Finset.sum_le_sum fun a _ => Finset.sum_le_sum fun b _ => h a b).trans (le_of_eq ?_)
    simp only [← Finset.sum_mul]
  exact Real.sqrt_le_iff.2 ⟨mul_nonneg (Real.sqrt_nonneg _) (size_nonneg _), h2⟩

theorem act_eq (t : T4 o ℂ) (v : Matrix o o ℂ) (p : o × o) : act t v p.1 p.2 = (pairMat t *ᵥ fun q => v q.1 q.2) p := by
  rw [act, Matrix.of_apply, Matrix.mulVec, dotProduct, Fintype.sum_prod_type]
  rfl

/-- a bubble that is a small map has an RPA denominator that is invertible -/
theorem unit_of_act {X U : T4 o ℂ} {r : ℝ} (hX : ∀ v, size (act X v) ≤ r * size v) (hr : 0 ≤ r) (h : r * Steps.size4 U < 1) :
    IsUnit (1 - pairMat X * pairMat U).det := by
  rw [isUnit_iff_ne_zero]
  intro h0
  obtain ⟨v, hv, h1⟩ := Matrix.exists_mulVec_eq_zero_iff.2 h0
  rw [Matrix.sub_mulVec, Matrix.one_mulVec, sub_eq_zero, ← Matrix.mulVec_mulVec] at h1
  set V : Matrix o o ℂ := Matrix.of fun a b => v (a, b) with hV
  have e1 : (fun q : o × o => act U V q.1 q.2) = pairMat U *ᵥ v := funext fun q => act_eq U V q
  have e2 : V = act X (act U V) := by
    ext a b
    have := congrFun h1 (a, b)
    rw [← e1, ← act_eq X (act U V) (a, b)] at this
    exact this
  have h2 : size V ≤ r * Steps.size4 U * size V := by
    calc size V = size (act X (act U V)) := congrArg size e2
      _ ≤ r * size (act U V) := hX _
      _ ≤ r * (Steps.size4 U * size V) := mul_le_mul_of_nonneg_left (size_act U V) hr
      _ = _ := by ring
  have h3 : size V = 0 := by
    have := size_nonneg V
    nlinarith
  apply hv
  funext p
  exact congrFun (congrFun (size_eq_zero h3) p.1) p.2

theorem rpa_of_act {X U Y : T4 o ℂ} {r : ℝ} (hX : ∀ v, size (act X v) ≤ r * size v) (hr : 0 ≤ r) (h : r * Steps.size4 U < 1)
    (hY : pairMat Y = pairMat X + pairMat X * pairMat U * pairMat Y) (v : Matrix o o ℂ) :
    size (act Y v) ≤ r / (1 - r * Steps.size4 U) * size v := by
  have e1 : act Y v = act X v + act X (act U (act Y v)) := by
    ext a b
    rw [Matrix.add_apply]
    have e2 : (fun q : o × o => act Y v q.1 q.2) = pairMat Y *ᵥ fun q => v q.1 q.2 := funext fun q => act_eq Y v q
    have e3 : (fun q : o × o => act U (act Y v) q.1 q.2) = pairMat U *ᵥ (pairMat Y *ᵥ fun q => v q.1 q.2) := by
      funext q
      rw [act_eq U, e2]
    rw [act_eq X v (a, b), act_eq X (act U (act Y v)) (a, b), act_eq Y v (a, b), e3]
    conv_lhs => rw [hY]
    rw [Matrix.add_mulVec, Pi.add_apply, ← Matrix.mulVec_mulVec, ← Matrix.mulVec_mulVec]
  have h1 : size (act Y v) ≤ r * size v + r * Steps.size4 U * size (act Y v) := by
    calc size (act Y v) = size (act X v + act X (act U (act Y v))) := congrArg size e1
      _ ≤ size (act X v) + size (act X (act U (act Y v))) := size_add_le _ _
      _ ≤ r * size v + r * (Steps.size4 U * size (act Y v)) :=
        add_le_add (hX v) ((hX _).trans (mul_le_mul_of_nonneg_left (size_act U _) hr))
      _ = _ := by ring
  have h2 : 0 < 1 - r * Steps.size4 U := by linarith
  rw [div_mul_eq_mul_div, le_div_iff₀ h2]
  linarith

end Pairs

/-! ## The results -/

section Results

variable {d : ℕ} {n : Fin d → ℕ} [∀ i, NeZero (n i)] {o : Type*} [Fintype o] [DecidableEq o]

/-- C139: on the imaginary axis `lindhard_chi00` multiplies no table of orbital pairs by more than `1/(4 T)`. -/
theorem C139_bubble (ranks : ℕ) (hr : 0 < ranks) (eig : Eig o) (hs : EigSpec eig) (tol beta mu : ℝ) (_ht : 0 < tol) (hb : 0 < beta)
    (kmesh : List (Lat n)) (hnd : kmesh.Nodup) (hall : ∀ k, k ∈ kmesh) (e : Lat n → Matrix o o ℂ) (he : ∀ k, (e k).IsHermitian)
    (z : ℂ) (hz : z.re = 0) (q : Lat n) (v : Matrix o o ℂ) :
    size (act (lindhard ranks eig tol beta mu kmesh e z q) v) ≤ beta / 4 * size v := by
  have hK : (0 : ℝ) < Fintype.card (Lat n) := by exact_mod_cast Fintype.card_pos
  rw [lindhard_eq ranks hr eig tol beta mu kmesh hnd hall, act_smul, act_sum, size_csmul, norm_inv, Complex.norm_natCast]
  have h1 : size (∑ k, act (dbl (sys eig mu e k) (sys eig mu e (k + q)) (totalFactor tol beta z)) v)
      ≤ Fintype.card (Lat n) * (beta / 4 * size v) := by
    refine (size_sum_le _ _).trans ((Finset.sum_le_sum fun k _ => size_act_dbl (sys_diag hs mu he k) (sys_diag hs mu he (k + q))
      (by positivity) (totalFactor tol beta z) (fun x y => weight_le tol beta hb z hz x y) v).trans (le_of_eq ?_))
    rw [Finset.sum_const, nsmul_eq_mul]
    rfl
  rw [inv_mul_le_iff₀ hK]
  exact h1

/-- C139: no element of the bubble is larger than `1/(4 T)`. -/
theorem C139_elements (ranks : ℕ) (hr : 0 < ranks) (eig : Eig o) (hs : EigSpec eig) (tol beta mu : ℝ) (ht : 0 < tol) (hb : 0 < beta)
    (kmesh : List (Lat n)) (hnd : kmesh.Nodup) (hall : ∀ k, k ∈ kmesh) (e : Lat n → Matrix o o ℂ) (he : ∀ k, (e k).IsHermitian)
    (z : ℂ) (hz : z.re = 0) (q : Lat n) (a b c x : o) : ‖lindhard ranks eig tol beta mu kmesh e z q a b c x‖ ≤ beta / 4 :=
  le_of_act (C139_bubble ranks hr eig hs tol beta mu ht hb kmesh hnd hall e he z hz q) a b c x

/-- C139: for an interaction below `4 T` the RPA exists at every Matsubara frequency and momentum of every lattice, and stays bounded. -/
theorem C139_rpa (r r' : ℕ) (hr : 0 < r) (hr' : 0 < r') (eig : Eig o) (hs : EigSpec eig) (tol beta mu : ℝ) (ht : 0 < tol) (hb : 0 < beta)
    (kmesh : List (Lat n)) (hnd : kmesh.Nodup) (hall : ∀ k, k ∈ kmesh) (e : Lat n → Matrix o o ℂ) (he : ∀ k, (e k).IsHermitian)
    (mesh : List (ℤ × Lat n)) (hm : mesh.Nodup) (U : T4 o ℂ) (hU : Steps.size4 U < 4 * (1 / beta)) (w : ℤ) (q : Lat n)
    (hp : (w, q) ∈ mesh) :
    IsUnit (1 - pairMat (lindhard r eig tol beta mu kmesh e (matsubara .boson beta w) q) * pairMat U).det ∧
    (∀ v, size (act (solveRpaPH r' mesh (fun p => lindhard r eig tol beta mu kmesh e (matsubara .boson beta p.1) p.2) U (w, q)) v)
      ≤ beta / 4 / (1 - beta / 4 * Steps.size4 U) * size v) ∧
    ∀ a b c x, ‖solveRpaPH r' mesh (fun p => lindhard r eig tol beta mu kmesh e (matsubara .boson beta p.1) p.2) U (w, q) a b c x‖
      ≤ beta / 4 / (1 - beta / 4 * Steps.size4 U) := by
  have hz : (matsubara .boson beta w).re = 0 := by
    have : matsubara .boson beta w = ((2 * w * Real.pi / beta : ℝ) : ℂ) * I := by
      unfold matsubara
      push_cast
      ring
    rw [this]
    simp
  have hX := C139_bubble r hr eig hs tol beta mu ht hb kmesh hnd hall e he _ hz q
  have h : beta / 4 * Steps.size4 U < 1 := by
    rw [mul_one_div, lt_div_iff₀ hb] at hU
    linarith
  have hu := unit_of_act hX (by positivity) h
  have hY : ∀ v, size (act (solveRpaPH r' mesh (fun p => lindhard r eig tol beta mu kmesh e (matsubara .boson beta p.1) p.2) U (w, q)) v)
      ≤ beta / 4 / (1 - beta / 4 * Steps.size4 U) * size v := by
    refine rpa_of_act hX (by positivity) h ?_
    rw [solveRpaPH_apply r' hr' mesh hm _ U _ hp]
    have e1 : pairMat (rpaPoint (lindhard r eig tol beta mu kmesh e (matsubara .boson beta w) q) U)
        = (1 - pairMat (lindhard r eig tol beta mu kmesh e (matsubara .boson beta w) q) * pairMat U)⁻¹
          * pairMat (lindhard r eig tol beta mu kmesh e (matsubara .boson beta w) q) := rfl
    dsimp only
    rw [e1]
    set X := pairMat (lindhard r eig tol beta mu kmesh e (matsubara .boson beta w) q)
    have e2 := Matrix.mul_nonsing_inv _ hu
    rw [Matrix.sub_mul, Matrix.one_mul, sub_eq_iff_eq_add] at e2
    conv_lhs => rw [e2, Matrix.add_mul, Matrix.one_mul]
    rw [Matrix.mul_assoc]
  exact ⟨hu, hY, fun a b c x => le_of_act hY a b c x⟩

/-- C139: a vanishing denominator of the RPA at a Matsubara frequency needs an interaction of at least `4 T`. -/
theorem C139_instability (r : ℕ) (hr : 0 < r) (eig : Eig o) (hs : EigSpec eig) (tol beta mu : ℝ) (ht : 0 < tol) (hb : 0 < beta)
    (kmesh : List (Lat n)) (hnd : kmesh.Nodup) (hall : ∀ k, k ∈ kmesh) (e : Lat n → Matrix o o ℂ) (he : ∀ k, (e k).IsHermitian)
    (U : T4 o ℂ) (w : ℤ) (q : Lat n)
    (h0 : (1 - pairMat (lindhard r eig tol beta mu kmesh e (matsubara .boson beta w) q) * pairMat U).det = 0) :
    4 * (1 / beta) ≤ Steps.size4 U := by
  by_contra hU
  have := (C139_rpa r 1 hr one_pos eig hs tol beta mu ht hb kmesh hnd hall e he [(w, q)] (List.nodup_singleton _) U (not_le.1 hU) w q
    (List.mem_singleton_self _)).1
  rw [h0] at this
  exact not_isUnit_zero this

end Results

/-! ## One level at the Fermi energy reaches the bound -/

section Example

theorem level (eig : Eig (Fin 1)) (hs : EigSpec eig) (tol beta : ℝ) (ht : 0 < tol) (q : L0) :
    lindhard 1 eig tol beta 0 [(0 : L0)] (fun _ => (0 : Matrix (Fin 1) (Fin 1) ℂ)) 0 q 0 0 0 0 = ((beta / 4 : ℝ) : ℂ) := by
  have hcard : Fintype.card L0 = 1 := by decide
  rw [lindhard_eq 1 one_pos eig tol beta 0 _ L0_complete.1 L0_complete.2, hcard, Nat.cast_one, inv_one, one_smul]
  have h1 : ∀ k : L0, dbl (sys eig 0 (fun _ => (0 : Matrix (Fin 1) (Fin 1) ℂ)) k) (sys eig 0 (fun _ => 0) (k + q)) (totalFactor tol beta 0)
      0 0 0 0 = ((beta / 4 : ℝ) : ℂ) := by
    intro k
    have hz : ((0 : Matrix (Fin 1) (Fin 1) ℂ) - ((0 : ℝ) : ℂ) • 1) = 0 := by simp
    unfold sys
    rw [hz, one_band_dbl hs Matrix.isHermitian_zero Matrix.isHermitian_zero 0 0 (by simp) (by simp)]
    simp [totalFactor, ht]
  rw [Finset.sum_apply, Finset.sum_apply, Finset.sum_apply, Finset.sum_apply, Finset.sum_congr rfl fun k _ => h1 k, Finset.sum_const,
    Finset.card_univ, hcard, one_smul]

/-- C139: neither bound can be improved: one level at the Fermi energy has the bubble `1/(4 T)`, and becomes unstable exactly at `U = 4 T`. -/
theorem C139_sharp (eig : Eig (Fin 1)) (hs : EigSpec eig) (tol beta : ℝ) (ht : 0 < tol) (hb : 0 < beta) :
    ‖lindhard 1 eig tol beta 0 [(0 : L0)] (fun _ => (0 : Matrix (Fin 1) (Fin 1) ℂ)) (matsubara .boson beta 0) 0 0 0 0 0‖ = beta / 4 ∧
    ∃ U : T4 (Fin 1) ℂ, Steps.size4 U = 4 * (1 / beta) ∧
      (1 - pairMat (lindhard 1 eig tol beta 0 [(0 : L0)] (fun _ => (0 : Matrix (Fin 1) (Fin 1) ℂ)) (matsubara .boson beta 0) 0)
        * pairMat U).det = 0 := by
  have hz : matsubara .boson beta 0 = 0 := by simp [matsubara]
  have hl := level eig hs tol beta ht 0
  rw [hz]
  refine ⟨?_, fun _ _ _ _ => ((4 * (1 / beta) : ℝ) : ℂ), ?_, ?_⟩
  · rw [hl, Complex.norm_real, Real.norm_eq_abs, abs_of_pos (by positivity)]
  · unfold Steps.size4
    simp only [Finset.univ_unique, Finset.sum_singleton, Complex.norm_real, Real.norm_eq_abs, sq_abs]
    exact Real.sqrt_sq (by positivity)
  · rw [Matrix.det_eq_elem_of_subsingleton _ ((0 : Fin 1), (0 : Fin 1)), Matrix.sub_apply, Matrix.mul_apply, Fintype.sum_prod_type]
    simp only [Finset.univ_unique, Finset.sum_singleton, pairMat, Matrix.one_apply_eq, Fin.default_eq_zero, hl]
    have hb' : (beta : ℂ) ≠ 0 := by exact_mod_cast hb.ne'
    push_cast
    field_simp
    ring

/-- the hypotheses of `C139_rpa` hold for the level with `U = 2 T` -/
example (eig : Eig (Fin 1)) (hs : EigSpec eig) (beta : ℝ) (hb : 0 < beta) :
    IsUnit (1 - pairMat (lindhard 1 eig 1 beta 0 [(0 : L0)] (fun _ => (0 : Matrix (Fin 1) (Fin 1) ℂ)) (matsubara .boson beta 0) 0)
      * pairMat (fun _ _ _ _ => ((2 * (1 / beta) : ℝ) : ℂ))).det := by
  refine (C139_rpa 1 1 one_pos one_pos eig hs 1 beta 0 one_pos hb [(0 : L0)] L0_complete.1 L0_complete.2
    (fun _ => (0 : Matrix (Fin 1) (Fin 1) ℂ)) (fun _ => Matrix.isHermitian_zero) [(0, 0)] (List.nodup_singleton _) _ ?_ 0 0
    (List.mem_singleton_self _)).1
  unfold Steps.size4
  simp only [Finset.univ_unique, Finset.sum_singleton, Complex.norm_real, Real.norm_eq_abs, sq_abs]
  rw [Real.sqrt_sq (by positivity)]
  have : 0 < 1 / beta := by positivity
  linarith

end Example

end Verif.RpaBound
