import Verif.Reversal.Hf
import Mathlib.Algebra.Order.Chebyshev

/-!
# C132: at weak coupling the mean-field equations have one solution

Theorems about the model of `HartreeFockSolver` (`Verif.HartreeFock`).  The thermal density matrix as a function of the mean field is
minus a monotone map with constant `β/4` in the Frobenius norm, at fixed chemical potential and at fixed number of particles.
-/

set_option linter.unusedSectionVars false

noncomputable section

namespace Verif.Unique

open Complex Matrix Verif.HartreeFock Verif.Subsystem
open Verif.HfResponse (fermiMatrix)
open Verif.Lindhard (Diag matFun exists_eigSpec)

/-! ## Frobenius product and norm -/

section Frobenius

variable {o : Type*} [Fintype o] [DecidableEq o]

/-- sum of the squares of all matrix elements -/
def size2 (X : Matrix o o ℂ) : ℝ := ∑ a, ∑ b, ‖X a b‖ ^ 2

/-- Frobenius norm -/
def size (X : Matrix o o ℂ) : ℝ := Real.sqrt (size2 X)

/-- real part of the Frobenius product -/
def ip (X Y : Matrix o o ℂ) : ℝ := ∑ a, ∑ b, ((starRingEnd ℂ) (X a b) * Y a b).re

theorem ip_eq_trace (X Y : Matrix o o ℂ) : ip X Y = (Matrix.trace (Xᴴ * Y)).re := by
  unfold ip Matrix.trace
  simp only [Matrix.diag_apply, Matrix.mul_apply, Matrix.conjTranspose_apply, re_sum, RCLike.star_def]
  exact Finset.sum_comm

theorem ip_self (X : Matrix o o ℂ) : ip X X = size2 X := by
  unfold ip size2
  refine Finset.sum_congr rfl fun a _ => Finset.sum_congr rfl fun b _ => ?_
  rw [← Complex.normSq_eq_conj_mul_self, Complex.ofReal_re, Complex.normSq_eq_norm_sq]

theorem ip_add_right (X Y Z : Matrix o o ℂ) : ip X (Y + Z) = ip X Y + ip X Z := by
  simp only [ip_eq_trace, Matrix.mul_add, Matrix.trace_add, Complex.add_re]

theorem ip_sub_right (X Y Z : Matrix o o ℂ) : ip X (Y - Z) = ip X Y - ip X Z := by
  simp only [ip_eq_trace, Matrix.mul_sub, Matrix.trace_sub, Complex.sub_re]

theorem ip_smul_right (r : ℝ) (X Y : Matrix o o ℂ) : ip X ((r : ℂ) • Y) = r * ip X Y := by
  simp only [ip_eq_trace, Matrix.mul_smul, Matrix.trace_smul, smul_eq_mul, Complex.re_ofReal_mul]

theorem ip_smul_left (r : ℝ) (X Y : Matrix o o ℂ) : ip ((r : ℂ) • X) Y = r * ip X Y := by
  simp only [ip_eq_trace, Matrix.conjTranspose_smul, RCLike.star_def, Complex.conj_ofReal, Matrix.smul_mul, Matrix.trace_smul,
    smul_eq_mul, Complex.re_ofReal_mul]

theorem ip_sum_left {κ : Type*} [Fintype κ] (X : κ → Matrix o o ℂ) (Y : Matrix o o ℂ) : ip (∑ k, X k) Y = ∑ k, ip (X k) Y := by
  simp only [ip_eq_trace, Matrix.conjTranspose_sum, Finset.sum_mul, Matrix.trace_sum, Complex.re_sum]

theorem size2_nonneg (X : Matrix o o ℂ) : 0 ≤ size2 X :=
  Finset.sum_nonneg fun _ _ => Finset.sum_nonneg fun _ _ => sq_nonneg _

theorem size_nonneg (X : Matrix o o ℂ) : 0 ≤ size X := Real.sqrt_nonneg _

theorem size_sq (X : Matrix o o ℂ) : size X ^ 2 = size2 X := Real.sq_sqrt (size2_nonneg X)

theorem size2_eq_zero {X : Matrix o o ℂ} (h : size2 X = 0) : X = 0 := by
  ext a b
  have h1 := (Finset.sum_eq_zero_iff_of_nonneg fun a _ => Finset.sum_nonneg fun b _ => sq_nonneg ‖X a b‖).1 h a (Finset.mem_univ a)
  have h2 := (Finset.sum_eq_zero_iff_of_nonneg fun b _ => sq_nonneg ‖X a b‖).1 h1 b (Finset.mem_univ b)
  rw [Matrix.zero_apply]
  exact norm_eq_zero.1 (pow_eq_zero_iff (two_ne_zero)|>.1 h2)

/-- Cauchy-Schwarz -/
theorem abs_ip_le (X Y : Matrix o o ℂ) : |ip X Y| ≤ size X * size Y := by
  unfold ip size size2
  rw [← Fintype.sum_prod_type' (f := fun a b => ((starRingEnd ℂ) (X a b) * Y a b).re),
    ← Fintype.sum_prod_type' (f := fun a b => ‖X a b‖ ^ 2), ← Fintype.sum_prod_type' (f := fun a b => ‖Y a b‖ ^ 2)]
  refine (Finset.abs_sum_le_sum_abs _ _).trans ?_
  refine (Finset.sum_le_sum fun x _ => ?_).trans
    (Real.sum_mul_le_sqrt_mul_sqrt Finset.univ (fun x : o × o => ‖X x.1 x.2‖) fun x => ‖Y x.1 x.2‖)
  refine (Complex.abs_re_le_norm _).trans ?_
  rw [norm_mul, RCLike.norm_conj]

theorem size_add_le (X Y : Matrix o o ℂ) : size (X + Y) ≤ size X + size Y := by
  have h : size (X + Y) ^ 2 ≤ (size X + size Y) ^ 2 := by
    have e : size2 (X + Y) = size2 X + 2 * ip X Y + size2 Y := by
      have hc : ip Y X = ip X Y := by
        unfold ip
        refine Finset.sum_congr rfl fun a _ => Finset.sum_congr rfl fun b _ => ?_
        simp only [Complex.mul_re, Complex.conj_re, Complex.conj_im]
        ring
      rw [← ip_self, ip_add_right]
      have h2 : ∀ Z, ip (X + Y) Z = ip X Z + ip Y Z := fun Z => by
        simp only [ip_eq_trace, Matrix.conjTranspose_add, Matrix.add_mul, Matrix.trace_add, Complex.add_re]
      rw [h2, h2, ip_self, ip_self, hc]
      ring
    rw [size_sq, e, ← size_sq, ← size_sq]
    have := (abs_le.1 (abs_ip_le X Y)).2
    nlinarith
  exact (sq_le_sq₀ (size_nonneg _) (add_nonneg (size_nonneg _) (size_nonneg _))).1 h

theorem size_smul (r : ℝ) (X : Matrix o o ℂ) : size ((r : ℂ) • X) = |r| * size X := by
  unfold size size2
  simp only [Matrix.smul_apply, smul_eq_mul, norm_mul, Complex.norm_real, Real.norm_eq_abs, mul_pow, sq_abs, ← Finset.mul_sum]
  rw [Real.sqrt_mul (sq_nonneg r), Real.sqrt_sq_eq_abs]

theorem size_neg (X : Matrix o o ℂ) : size (-X) = size X := by
  unfold size size2
  simp only [Matrix.neg_apply, norm_neg]

theorem size_sub_comm (X Y : Matrix o o ℂ) : size (X - Y) = size (Y - X) := by rw [← neg_sub, size_neg]

theorem size_sub_le (X Y Z : Matrix o o ℂ) : size (X - Z) ≤ size (X - Y) + size (Y - Z) := by
  have := size_add_le (X - Y) (Y - Z)
  rwa [sub_add_sub_cancel] at this

theorem size_eq_zero {X : Matrix o o ℂ} (h : size X = 0) : X = 0 :=
  size2_eq_zero (by rw [← size_sq, h]; ring)

/-- the mean of several matrices is not larger than their mean size -/
theorem size2_mean {κ : Type*} [Fintype κ] [Nonempty κ] (X : κ → Matrix o o ℂ) :
    size2 ((Fintype.card κ : ℂ)⁻¹ • ∑ k, X k) ≤ (Fintype.card κ : ℝ)⁻¹ * ∑ k, size2 (X k) := by
  have hK : (0 : ℝ) < Fintype.card κ := by exact_mod_cast Fintype.card_pos
  have e : ∑ k, size2 (X k) = ∑ a, ∑ b, ∑ k, ‖X k a b‖ ^ 2 := by
    unfold size2
    rw [Finset.sum_comm]
    exact Finset.sum_congr rfl fun a _ => Finset.sum_comm
  rw [e]
  unfold size2
  rw [Finset.mul_sum]
  refine Finset.sum_le_sum fun a _ => ?_
  rw [Finset.mul_sum]
  refine Finset.sum_le_sum fun b _ => ?_
  rw [Matrix.smul_apply, Matrix.sum_apply, smul_eq_mul, norm_mul, norm_inv, Complex.norm_natCast, mul_pow]
  have h1 : ‖∑ k, X k a b‖ ^ 2 ≤ (∑ k, ‖X k a b‖) ^ 2 := by
    gcongr
    exact norm_sum_le _ _
  have h2 : (∑ k, ‖X k a b‖) ^ 2 ≤ (Fintype.card κ : ℝ) * ∑ k, ‖X k a b‖ ^ 2 := by
    have := sq_sum_le_card_mul_sum_sq (s := (Finset.univ : Finset κ)) (f := fun k => ‖X k a b‖)
    rwa [Finset.card_univ] at this
  calc ((Fintype.card κ : ℝ)⁻¹) ^ 2 * ‖∑ k, X k a b‖ ^ 2
      ≤ ((Fintype.card κ : ℝ)⁻¹) ^ 2 * ((Fintype.card κ : ℝ) * ∑ k, ‖X k a b‖ ^ 2) := by
        gcongr
        exact h1.trans h2
    _ = _ := by
        field_simp

end Frobenius

/-! ## The Fermi function of a matrix is monotone -/

section Monotone

variable {o : Type*} [Fintype o] [DecidableEq o]

/-- two functions of two hermitian matrices: products of the differences in the two eigenbases -/
theorem ip_matFun {A B : Matrix o o ℂ} {p q : (o → ℝ) × Matrix o o ℂ} (hp : Diag A p) (hq : Diag B q) (f g : ℝ → ℝ) :
    ip (matFun p (fun x => (f x : ℂ)) - matFun q fun x => (f x : ℂ)) (matFun p (fun x => (g x : ℂ)) - matFun q fun x => (g x : ℂ))
      = ∑ i, ∑ j, (f (p.1 i) - f (q.1 j)) * (g (p.1 i) - g (q.1 j)) * Complex.normSq ((p.2ᴴ * q.2) i j) := by
  obtain ⟨p1, p2, -⟩ := hp
  obtain ⟨q1, q2, -⟩ := hq
  have key : ∀ h : ℝ → ℝ, matFun p (fun x => (h x : ℂ)) - matFun q (fun x => (h x : ℂ))
      = p.2 * Matrix.of (fun i j => ((h (p.1 i) - h (q.1 j) : ℝ) : ℂ) * (p.2ᴴ * q.2) i j) * q.2ᴴ := by
    intro h
    have e : Matrix.of (fun i j => ((h (p.1 i) - h (q.1 j) : ℝ) : ℂ) * (p.2ᴴ * q.2) i j)
        = diagonal (fun i => (h (p.1 i) : ℂ)) * (p.2ᴴ * q.2) - (p.2ᴴ * q.2) * diagonal (fun i => (h (q.1 i) : ℂ)) := by
      ext i j
      rw [Matrix.sub_apply, Matrix.diagonal_mul, Matrix.mul_diagonal, Matrix.of_apply]
      push_cast
      ring
    rw [e]
    unfold matFun
    calc p.2 * diagonal (fun i => (h (p.1 i) : ℂ)) * p.2ᴴ - q.2 * diagonal (fun i => (h (q.1 i) : ℂ)) * q.2ᴴ
        = p.2 * diagonal (fun i => (h (p.1 i) : ℂ)) * p.2ᴴ * (q.2 * q.2ᴴ)
          - (p.2 * p.2ᴴ) * (q.2 * diagonal (fun i => (h (q.1 i) : ℂ)) * q.2ᴴ) := by rw [q2, p2, mul_one, one_mul]
      _ = _ := by noncomm_ring
  rw [key, key, ip_eq_trace]
  set x := Matrix.of fun i j => ((f (p.1 i) - f (q.1 j) : ℝ) : ℂ) * (p.2ᴴ * q.2) i j with hx
  set y := Matrix.of fun i j => ((g (p.1 i) - g (q.1 j) : ℝ) : ℂ) * (p.2ᴴ * q.2) i j with hy
  have e : (p.2 * x * q.2ᴴ)ᴴ * (p.2 * y * q.2ᴴ) = q.2 * (xᴴ * y * q.2ᴴ) := by
    rw [Matrix.conjTranspose_mul, Matrix.conjTranspose_mul, Matrix.conjTranspose_conjTranspose]
    calc q.2 * (xᴴ * p.2ᴴ) * (p.2 * y * q.2ᴴ) = q.2 * (xᴴ * (p.2ᴴ * p.2) * y * q.2ᴴ) := by noncomm_ring
      _ = _ := by rw [p1, mul_one]
  rw [e, Matrix.trace_mul_comm, Matrix.mul_assoc, q1, mul_one, ← ip_eq_trace]
  unfold ip
  refine Finset.sum_congr rfl fun i _ => Finset.sum_congr rfl fun j _ => ?_
  simp only [hx, hy, Matrix.of_apply, map_mul, Complex.conj_ofReal]
  rw [show ((f (p.1 i) - f (q.1 j) : ℝ) : ℂ) * (starRingEnd ℂ) ((p.2ᴴ * q.2) i j)
      * (((g (p.1 i) - g (q.1 j) : ℝ) : ℂ) * (p.2ᴴ * q.2) i j)
      = (((f (p.1 i) - f (q.1 j)) * (g (p.1 i) - g (q.1 j)) : ℝ) : ℂ)
        * ((starRingEnd ℂ) ((p.2ᴴ * q.2) i j) * (p.2ᴴ * q.2) i j) by push_cast; ring,
    ← Complex.normSq_eq_conj_mul_self, ← Complex.ofReal_mul, Complex.ofReal_re]

theorem fermi_pair {beta : ℝ} (hb : 0 < beta) (x y : ℝ) :
    4 / beta * ((fermi beta x - fermi beta y) * (fermi beta x - fermi beta y)) ≤ -((fermi beta x - fermi beta y) * (x - y)) := by
  have h1 := fermi_lipschitz beta hb.le x y
  have h2 : -((fermi beta x - fermi beta y) * (x - y)) = |fermi beta x - fermi beta y| * |x - y| := by
    rcases le_total x y with h | h
    · have h3 := (fermi_strictAnti beta hb).antitone h
      rw [abs_of_nonneg (by linarith), abs_of_nonpos (by linarith)]
      ring
    · have h3 := (fermi_strictAnti beta hb).antitone h
      rw [abs_of_nonpos (by linarith), abs_of_nonneg (by linarith)]
      ring
  rw [h2, ← abs_mul_abs_self (fermi beta x - fermi beta y)]
  have h3 : 4 / beta * |fermi beta x - fermi beta y| ≤ |x - y| := by
    rw [div_mul_eq_mul_div, div_le_iff₀ hb]
    linarith
  have h4 := mul_le_mul_of_nonneg_left h3 (abs_nonneg (fermi beta x - fermi beta y))
  linarith

end Monotone

variable {n : ℕ} {κ : Type*}

theorem fermiMatrix_monotone {beta : ℝ} (hb : 0 < beta) {A B : Matrix (Fin n) (Fin n) ℂ} (hA : A.IsHermitian) (hB : B.IsHermitian)
    (mu nu : ℝ) :
    4 / beta * size2 (fermiMatrix beta (A - (mu : ℂ) • 1) - fermiMatrix beta (B - (nu : ℂ) • 1))
      ≤ -ip (fermiMatrix beta (A - (mu : ℂ) • 1) - fermiMatrix beta (B - (nu : ℂ) • 1))
          ((A - (mu : ℂ) • 1) - (B - (nu : ℂ) • 1)) := by
  obtain ⟨eig, hs⟩ := exists_eigSpec (o := Fin n)
  have hsh : ∀ {X : Matrix (Fin n) (Fin n) ℂ} (hX : X.IsHermitian) (m : ℝ),
      ∃ q, Diag (X - (m : ℂ) • 1) q ∧ fermiMatrix beta (X - (m : ℂ) • 1) = matFun q fun x => (fermi beta x : ℂ) := by
    intro X hX m
    have hX' : (X - (m : ℂ) • (1 : Matrix (Fin n) (Fin n) ℂ)).IsHermitian := by
      refine hX.sub ?_
      unfold Matrix.IsHermitian
      rw [Matrix.conjTranspose_smul, Matrix.conjTranspose_one, RCLike.star_def, Complex.conj_ofReal]
    have hd : Diag (X - (m : ℂ) • 1) (eig (X - (m : ℂ) • 1)) := hs _ hX'
    have h0 := fermiMatrix_shift beta 0 hd
    rw [Complex.ofReal_zero, zero_smul, sub_zero] at h0
    refine ⟨_, hd, h0.trans ?_⟩
    simp only [sub_zero]
  obtain ⟨p, hp, ep⟩ := hsh hA mu
  obtain ⟨q, hq, eq⟩ := hsh hB nu
  have eA : A - (mu : ℂ) • 1 = matFun p fun x => ((fun y : ℝ => y) x : ℂ) := hp.2.2
  have eB : B - (nu : ℂ) • 1 = matFun q fun x => ((fun y : ℝ => y) x : ℂ) := hq.2.2
  rw [← ip_self, ep, eq, ip_matFun hp hq (fermi beta) (fermi beta)]
  conv_rhs => rw [eA, eB]
  rw [ip_matFun hp hq (fermi beta) fun y => y, Finset.mul_sum, ← Finset.sum_neg_distrib]
  refine Finset.sum_le_sum fun i _ => ?_
  rw [Finset.mul_sum, ← Finset.sum_neg_distrib]
  refine Finset.sum_le_sum fun j _ => ?_
  have := mul_le_mul_of_nonneg_right (fermi_pair hb (p.1 i) (q.1 j)) (Complex.normSq_nonneg ((p.2ᴴ * q.2) i j))
  linarith

section Thermal

variable [Fintype κ] [Nonempty κ]

theorem fermiMatrix_hermitian (beta : ℝ) {A : Matrix (Fin n) (Fin n) ℂ} (hA : A.IsHermitian) (mu : ℝ) :
    (fermiMatrix beta (A - (mu : ℂ) • 1)).IsHermitian := by
  obtain ⟨eig, hs⟩ := exists_eigSpec (o := Fin n)
  have hd : Diag A (eig A) := hs _ hA
  rw [fermiMatrix_shift beta mu hd]
  unfold matFun Matrix.IsHermitian
  rw [Matrix.conjTranspose_mul, Matrix.conjTranspose_mul, Matrix.conjTranspose_conjTranspose, Matrix.diagonal_conjTranspose,
    Matrix.mul_assoc]
  congr 3
  funext i
  exact Complex.conj_ofReal _

theorem thermal_hermitian (beta : ℝ) {h : κ → Matrix (Fin n) (Fin n) ℂ} (hh : ∀ k, (h k).IsHermitian) (mu : ℝ) :
    (thermalDensity beta h mu).IsHermitian := by
  unfold thermalDensity Matrix.IsHermitian
  rw [Matrix.conjTranspose_smul, Matrix.conjTranspose_sum]
  congr 1
  · simp
  · exact Finset.sum_congr rfl fun k _ => fermiMatrix_hermitian beta (hh k) mu

/-- C132: a change `X` of the field and a change of the chemical potential: the response of the thermal density matrix is opposite to
the change of the field, and bounded by it. -/
theorem C132_monotone {beta : ℝ} (hb : 0 < beta) {h h' : κ → Matrix (Fin n) (Fin n) ℂ} (hh : ∀ k, (h k).IsHermitian)
    (hh' : ∀ k, (h' k).IsHermitian) {X : Matrix (Fin n) (Fin n) ℂ} (hX : ∀ k, h' k - h k = X) (mu mu' : ℝ) :
    4 / beta * size2 (thermalDensity beta h' mu' - thermalDensity beta h mu)
      ≤ -ip (thermalDensity beta h' mu' - thermalDensity beta h mu) X
        + (mu' - mu) * (Matrix.trace (thermalDensity beta h' mu' - thermalDensity beta h mu)).re := by
  have hK : (0 : ℝ) < Fintype.card κ := by exact_mod_cast Fintype.card_pos
  set D : κ → Matrix (Fin n) (Fin n) ℂ := fun k => fermiMatrix beta (h' k - (mu' : ℂ) • 1) - fermiMatrix beta (h k - (mu : ℂ) • 1)
    with hD
  have e : thermalDensity beta h' mu' - thermalDensity beta h mu = (Fintype.card κ : ℂ)⁻¹ • ∑ k, D k := by
    unfold thermalDensity
    rw [← smul_sub, ← Finset.sum_sub_distrib]
  have e1 : ∀ k, (h' k - (mu' : ℂ) • (1 : Matrix (Fin n) (Fin n) ℂ)) - (h k - (mu : ℂ) • 1) = X - ((mu' - mu : ℝ) : ℂ) • 1 := by
    intro k
    rw [← hX k]
    push_cast
    rw [sub_smul]
    abel
  have e2 : ∀ Y : Matrix (Fin n) (Fin n) ℂ, ip ((Fintype.card κ : ℂ)⁻¹ • ∑ k, D k) Y = (Fintype.card κ : ℝ)⁻¹ * ∑ k, ip (D k) Y := by
    intro Y
    rw [← ip_sum_left, ← ip_smul_left]
    push_cast
    rfl
  have e3 : ∀ Y : Matrix (Fin n) (Fin n) ℂ, ip Y 1 = (Matrix.trace Y).re := by
    intro Y
    rw [ip_eq_trace, Matrix.mul_one, Matrix.trace_conjTranspose, RCLike.star_def, Complex.conj_re]
  have h4 : ∀ k, 4 / beta * size2 (D k) ≤ -ip (D k) (X - ((mu' - mu : ℝ) : ℂ) • 1) := by
    intro k
    have := fermiMatrix_monotone hb (hh' k) (hh k) mu' mu
    rwa [e1 k] at this
  rw [e]
  calc 4 / beta * size2 ((Fintype.card κ : ℂ)⁻¹ • ∑ k, D k)
      ≤ 4 / beta * ((Fintype.card κ : ℝ)⁻¹ * ∑ k, size2 (D k)) := by
        have := size2_mean D
        gcongr
    _ = (Fintype.card κ : ℝ)⁻¹ * ∑ k, 4 / beta * size2 (D k) := by
        rw [← Finset.mul_sum]
        ring
    _ ≤ (Fintype.card κ : ℝ)⁻¹ * ∑ k, -ip (D k) (X - ((mu' - mu : ℝ) : ℂ) • 1) := by
        have := Finset.sum_le_sum fun k (_ : k ∈ Finset.univ) => h4 k
        gcongr
    _ = -ip ((Fintype.card κ : ℂ)⁻¹ • ∑ k, D k) (X - ((mu' - mu : ℝ) : ℂ) • 1) := by
        rw [e2, Finset.sum_neg_distrib]
        ring
    _ = _ := by
        rw [ip_sub_right, ip_smul_right, e3]
        ring

end Thermal

/-! ## One solution -/

section Solutions

variable [Fintype κ] [Nonempty κ] [NeZero n] {U : Operators.T4 n} {beta : ℝ} {ek : κ → Matrix (Fin n) (Fin n) ℂ}

/-- the attraction in the interaction is weak against the temperature: no deviation `D` of the density matrix gains more from its own
mean field than `4/β` times its square -/
def Weak (U : Operators.T4 n) (beta : ℝ) : Prop :=
  ∀ D : Matrix (Fin n) (Fin n) ℂ, D.IsHermitian → D ≠ 0 → -(Matrix.trace (D * meanField U D)).re < 4 / beta * size2 D

theorem meanField_sub (rho rho' : Matrix (Fin n) (Fin n) ℂ) : meanField U rho - meanField U rho' = meanField U (rho - rho') := by
  have := C47_linear U 1 (-1) rho rho'
  rw [one_smul, one_smul, neg_smul, one_smul, neg_smul, one_smul, ← sub_eq_add_neg, ← sub_eq_add_neg] at this
  exact this.symm

theorem same_field {h : κ → Matrix (Fin n) (Fin n) ℂ} (hb : 0 < beta) (hh : ∀ k, (h k).IsHermitian) {mu mu' : ℝ}
    (ht : Matrix.trace (thermalDensity beta h mu) = Matrix.trace (thermalDensity beta h mu')) : mu = mu' := by
  rw [trace_thermalDensity beta mu h hh, trace_thermalDensity beta mu' h hh] at ht
  exact (C85_unique beta hb h hh).injective (by exact_mod_cast ht)

theorem sol_eq {mu : ℝ} {rho : Matrix (Fin n) (Fin n) ℂ} (hs : Solution U beta mu ek rho) :
    thermalDensity beta (fun k => ek k + meanField U rho) mu = rho := Eq.symm hs

/-- C132: with a weak attraction there is at most one self-consistent solution at a chemical potential, and at most one with a given
number of particles. -/
theorem C132_unique (hb : 0 < beta) (hU : Weak U beta) {mu mu' : ℝ} {rho rho' : Matrix (Fin n) (Fin n) ℂ}
    (hh : ∀ k, (ek k + meanField U rho).IsHermitian) (hh' : ∀ k, (ek k + meanField U rho').IsHermitian)
    (hs : Solution U beta mu ek rho) (hs' : Solution U beta mu' ek rho') (h : mu = mu' ∨ Matrix.trace rho = Matrix.trace rho') :
    rho = rho' ∧ mu = mu' := by
  have hr : rho = rho' := by
    by_contra hne
    have hX : ∀ k, (ek k + meanField U rho') - (ek k + meanField U rho) = meanField U (rho' - rho) := by
      intro k
      rw [← meanField_sub]
      abel
    have h1 := C132_monotone hb hh hh' hX mu mu'
    rw [sol_eq hs, sol_eq hs'] at h1
    have hD : (rho' - rho).IsHermitian := by
      refine Matrix.IsHermitian.sub ?_ ?_
      · rw [hs']; exact thermal_hermitian beta hh' mu'
      · rw [hs]; exact thermal_hermitian beta hh mu
    have h2 := hU _ hD (sub_ne_zero.2 fun h => hne h.symm)
    have h3 : (mu' - mu) * (Matrix.trace (rho' - rho)).re = 0 := by
      rcases h with rfl | h
      · rw [sub_self, zero_mul]
      · rw [Matrix.trace_sub, h, sub_self, Complex.zero_re, mul_zero]
    rw [h3, ip_eq_trace, hD.eq] at h1
    linarith
  subst hr
  refine ⟨rfl, ?_⟩
  rcases h with h | -
  · exact h
  · exact same_field hb hh ((congrArg Matrix.trace (sol_eq hs)).trans (congrArg Matrix.trace (sol_eq hs')).symm)

/-- the interaction as a map of density matrices to mean fields is bounded by `c` -/
def Bounded (U : Operators.T4 n) (c : ℝ) : Prop :=
  0 ≤ c ∧ ∀ D : Matrix (Fin n) (Fin n) ℂ, D.IsHermitian → (meanField U D).IsHermitian ∧ size (meanField U D) ≤ c * size D

/-- a bounded interaction is weak at high temperature -/
theorem Bounded.weak {c : ℝ} (hc : Bounded U c) (hb : 0 < beta) (hq : beta * c / 4 < 1) : Weak U beta := by
  intro D hD hne
  have h1 := (abs_le.1 (abs_ip_le D (meanField U D))).1
  rw [ip_eq_trace, hD.eq] at h1
  have h2 := (hc.2 D hD).2
  have h3 : 0 < size2 D := lt_of_le_of_ne (size2_nonneg D) fun h => hne (size2_eq_zero h.symm)
  have h4 : c < 4 / beta := by
    rw [lt_div_iff₀ hb]
    linarith
  calc -(Matrix.trace (D * meanField U D)).re ≤ size D * size (meanField U D) := by linarith
    _ ≤ size D * (c * size D) := mul_le_mul_of_nonneg_left h2 (size_nonneg D)
    _ = c * size2 D := by rw [← size_sq]; ring
    _ < 4 / beta * size2 D := mul_lt_mul_of_pos_right h4 h3

/-- C132: the step of the iteration brings any two density matrices closer, at fixed chemical potential and at fixed number of
particles. -/
theorem C132_contraction {c : ℝ} (hb : 0 < beta) (hc : Bounded U c) (he : ∀ k, (ek k).IsHermitian)
    {rho rho' : Matrix (Fin n) (Fin n) ℂ} (hr : rho.IsHermitian) (hr' : rho'.IsHermitian) {mu mu' : ℝ}
    (h : mu = mu' ∨ Matrix.trace (thermalDensity beta (fun k => ek k + meanField U rho) mu)
      = Matrix.trace (thermalDensity beta (fun k => ek k + meanField U rho') mu')) :
    size (thermalDensity beta (fun k => ek k + meanField U rho') mu' - thermalDensity beta (fun k => ek k + meanField U rho) mu)
      ≤ beta * c / 4 * size (rho' - rho) := by
  have hh : ∀ k, (ek k + meanField U rho).IsHermitian := fun k => (he k).add (hc.2 _ hr).1
  have hh' : ∀ k, (ek k + meanField U rho').IsHermitian := fun k => (he k).add (hc.2 _ hr').1
  have hX : ∀ k, (ek k + meanField U rho') - (ek k + meanField U rho) = meanField U (rho' - rho) := by
    intro k
    rw [← meanField_sub]
    abel
  have h1 := C132_monotone hb hh hh' hX mu mu'
  set D := thermalDensity beta (fun k => ek k + meanField U rho') mu' - thermalDensity beta (fun k => ek k + meanField U rho) mu with hD
  have h3 : (mu' - mu) * (Matrix.trace D).re = 0 := by
    rcases h with rfl | h
    · rw [sub_self, zero_mul]
    · rw [hD, Matrix.trace_sub, h, sub_self, Complex.zero_re, mul_zero]
  rw [h3, add_zero, ← size_sq] at h1
  have h2 := (abs_le.1 (abs_ip_le D (meanField U (rho' - rho)))).1
  have h4 := (hc.2 _ (hr'.sub hr)).2
  have h5 : 4 / beta * size D ^ 2 ≤ size D * (c * size (rho' - rho)) :=
    h1.trans (by have := mul_le_mul_of_nonneg_left h4 (size_nonneg D); linarith)
  rcases (size_nonneg D).eq_or_lt with h0 | h0
  · rw [← h0]
    have := hc.1
    have := size_nonneg (rho' - rho)
    positivity
  · have h6 : 4 / beta * size D ≤ c * size (rho' - rho) := by
      refine le_of_mul_le_mul_left ?_ h0
      linarith
    rw [div_mul_eq_mul_div, div_le_iff₀ hb] at h6
    linarith

/-- C132: how far a reported density matrix is from the solution, in terms of the change in the last step. -/
theorem C132_error {c : ℝ} (hb : 0 < beta) (hc : Bounded U c) (hq : beta * c / 4 < 1) (he : ∀ k, (ek k).IsHermitian)
    {x rho : Matrix (Fin n) (Fin n) ℂ} (hx : x.IsHermitian) (hr : rho.IsHermitian) {mu : ℝ} (hs : Solution U beta mu ek rho)
    {s : State n κ} (hd : DensityOf U beta ek x s) (h : s.mu = mu ∨ Matrix.trace s.rho = Matrix.trace rho) :
    size (s.rho - rho) ≤ beta * c / 4 / (1 - beta * c / 4) * size (x - s.rho) := by
  have e : s.rho = thermalDensity beta (fun k => ek k + meanField U x) s.mu := by
    rw [hd.rho]
    unfold thermalDensity
    congr 1
    refine Finset.sum_congr rfl fun k _ => ?_
    rw [hd.rhok, hd.bands, hd.mean]
  have h1 := C132_contraction hb hc he hr hx (mu := mu) (mu' := s.mu) (by
    rcases h with h | h
    · exact Or.inl h.symm
    · right
      rw [← e, sol_eq hs, h])
  rw [← e, sol_eq hs] at h1
  have h2 := size_sub_le x s.rho rho
  have h3 : 0 ≤ beta * c / 4 := by
    have := hc.1
    positivity
  have h4 := mul_le_mul_of_nonneg_left h2 h3
  rw [div_mul_eq_mul_div, le_div_iff₀ (by linarith)]
  linarith

end Solutions

end Verif.Unique
