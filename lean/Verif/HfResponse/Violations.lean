import Verif.HfResponse.Props
import Mathlib.Analysis.Complex.ExponentialBounds

/-!
# Where the response functions do not do what their users rely on

C82 for complex hermitian dispersions, C84 for the step and the momentum resolved bubble.
-/

noncomputable section

namespace Verif.HfResponse

open Matrix Filter Topology
open scoped Matrix.Norms.Operator

variable {n : ℕ} {κ : Type*} [Fintype κ]

set_option linter.unusedSectionVars false

/-! ## C82 fails for complex dispersions -/

theorem rhoOf_diag_im (eig : Lindhard.Eig (Fin n)) (beta : ℝ) (E : Matrix (Fin n) (Fin n) ℂ) (c : Fin n) :
    (rhoOf eig beta E c c).im = 0 := by
  simp only [rhoOf, Complex.im_sum]
  refine Finset.sum_eq_zero fun b _ => ?_
  rw [mul_right_comm, Complex.mul_conj, ← Complex.ofReal_mul, Complex.ofReal_im]

theorem drhoK_diag_im (eig : Lindhard.Eig (Fin n)) (b : Base n κ) (F : Matrix (Fin n) (Fin n) ℂ) (k : κ)
    (c : Fin n) : (drhoK eig b F k c c).im = 0 := by
  simp only [drhoK]
  have h : (2 * (b.eps : ℂ)) = ((2 * b.eps : ℝ) : ℂ) := by push_cast; rfl
  rw [h, Complex.div_ofReal_im, Complex.sub_im, rhoOf_diag_im, rhoOf_diag_im]
  simp

/-- Whatever the dispersion, the bare response of a diagonal operator to an antisymmetric field is reported as
zero. -/
theorem bareResponse_antisymm (eig : Lindhard.Eig (Fin n)) (U : Operators.T4 n) (b : Base n κ)
    (op1 op2 : Matrix (Fin n) (Fin n) ℂ) (h1 : op1ᵀ = -op1) (h2 : ∀ c d, c ≠ d → op2 c d = 0) :
    bareResponse (hfrOf eig U b) op1 op2 = 0 := by
  have hsymm : ∀ x y c, chi0Abcd eig b x y c c = chi0Abcd eig b y x c c := by
    intro x y c
    simp only [chi0Abcd, chi0Kabcd, rKabcd, Complex.neg_im, drhoK_diag_im]
    have : field (1 : ℂ) y x = field (1 : ℂ) x y := by
      rw [field_eq, field_eq, map_one, add_comm]
    rw [this]
  have hd : bareResponse (hfrOf eig U b) op1 op2
      = ∑ a, ∑ b', op1 a b' * ∑ c, chi0Abcd eig b a b' c c * op2 c c := by
    simp only [bareResponse, hfrOf, toTen, toMat]
    refine Finset.sum_congr rfl fun a _ => Finset.sum_congr rfl fun b' _ => ?_
    rw [Finset.mul_sum]
    refine Finset.sum_congr rfl fun c _ => ?_
    rw [Finset.sum_eq_single c]
    · ring
    · intro d _ hdc
      rw [h2 c d hdc.symm, mul_zero]
    · simp
  have hneg : ∀ a b', op1 b' a = -op1 a b' := fun a b' => congrFun (congrFun h1 a) b'
  have hself : bareResponse (hfrOf eig U b) op1 op2 = -bareResponse (hfrOf eig U b) op1 op2 := by
    conv_lhs => rw [hd, Finset.sum_comm]
    rw [hd, ← Finset.sum_neg_distrib]
    refine Finset.sum_congr rfl fun a _ => ?_
    rw [← Finset.sum_neg_distrib]
    refine Finset.sum_congr rfl fun b' _ => ?_
    rw [hneg a b']
    simp only [hsymm b' a]
    ring
  exact self_eq_neg.mp hself

/-- Fermi function of a matrix that squares to a multiple of the unit matrix -/
theorem fermiMatrix_of_sq (beta s : ℝ) (hs0 : s ≠ 0) {h : Matrix (Fin n) (Fin n) ℂ} (hh : h.IsHermitian)
    (hsq : h * h = ((s ^ 2 : ℝ) : ℂ) • 1) :
    fermiMatrix beta h = (1 / 2 : ℂ) • 1
      + (((HartreeFock.fermi beta s - 1 / 2) / s : ℝ) : ℂ) • h := by
  obtain ⟨eig, he⟩ := Lindhard.exists_eigSpec (o := Fin n)
  have hp : Lindhard.Diag h (eig h) := he h hh
  set p := eig h
  have hid : Lindhard.matFun p (fun x => (x : ℂ)) = h := hp.2.2.symm
  have hev : ∀ i, (p.1 i) ^ 2 = s ^ 2 := by
    intro i
    have h1 : Lindhard.matFun p (fun x => (x : ℂ) * (x : ℂ)) = ((s ^ 2 : ℝ) : ℂ) • 1 := by
      rw [← matFun_mul p hp.1, hid, hsq]
    have h2 : diagonal (fun i => (p.1 i : ℂ) * (p.1 i : ℂ))
        = p.2ᴴ * Lindhard.matFun p (fun x => (x : ℂ) * (x : ℂ)) * p.2 := by
      unfold Lindhard.matFun
      calc _ = (p.2ᴴ * p.2) * diagonal (fun i => (p.1 i : ℂ) * (p.1 i : ℂ)) * (p.2ᴴ * p.2) := by
            rw [hp.1, one_mul, mul_one]
        _ = _ := by noncomm_ring
    rw [h1, Matrix.mul_smul, mul_one, Matrix.smul_mul, hp.1] at h2
    have h3 := congrFun (congrFun h2 i) i
    rw [diagonal_apply_eq, Matrix.smul_apply, Matrix.one_apply_eq, smul_eq_mul, mul_one] at h3
    have : (p.1 i * p.1 i : ℝ) = s ^ 2 := by exact_mod_cast h3
    rw [sq, this]
  have hf : ∀ x : ℝ, HartreeFock.fermi beta (-x) = 1 - HartreeFock.fermi beta x := by
    intro x
    unfold HartreeFock.fermi
    have h1 : Real.exp (beta * -x) = (Real.exp (beta * x))⁻¹ := by rw [← Real.exp_neg]; congr 1; ring
    rw [h1]
    have := Real.exp_pos (beta * x)
    field_simp
    ring
  have hval : ∀ i, HartreeFock.fermi beta (p.1 i)
      = 1 / 2 + (HartreeFock.fermi beta s - 1 / 2) / s * p.1 i := by
    intro i
    rcases sq_eq_sq_iff_eq_or_eq_neg.1 (hev i) with h1 | h1
    · rw [h1]; field_simp; ring
    · rw [h1, hf]; field_simp; ring
  rw [fermiMatrix_of_diag beta hp]
  have h4 : Lindhard.matFun p (fun x => (HartreeFock.fermi beta x : ℂ))
      = Lindhard.matFun p (fun x => (1 / 2 : ℂ) * 1
        + (((HartreeFock.fermi beta s - 1 / 2) / s : ℝ) : ℂ) * (x : ℂ)) := by
    unfold Lindhard.matFun
    congr 3
    funext i
    dsimp only
    rw [hval i]
    push_cast
    ring
  rw [h4, ← matFun_add]
  have hsm : ∀ (c : ℂ) (g : ℝ → ℂ), Lindhard.matFun p (fun x => c * g x) = c • Lindhard.matFun p g := by
    intro c g
    ext a b
    rw [Matrix.smul_apply, Lindhard.matFun_apply, Lindhard.matFun_apply, smul_eq_mul, Finset.mul_sum]
    exact Finset.sum_congr rfl fun c' _ => by ring
  rw [hsm, hsm, hid, Lindhard.matFun_one hp]

/-- the Pauli matrix `σ_y` -/
def pauliY : Matrix (Fin 2) (Fin 2) ℂ := !![0, -Complex.I; Complex.I, 0]

/-- the Pauli matrix `σ_z` -/
def pauliZ : Matrix (Fin 2) (Fin 2) ℂ := !![1, 0; 0, -1]

theorem pauliY_herm : pauliY.IsHermitian := by
  ext i j; fin_cases i <;> fin_cases j <;> simp [pauliY, Matrix.conjTranspose_apply]

theorem pauliZ_herm : pauliZ.IsHermitian := by
  ext i j; fin_cases i <;> fin_cases j <;> simp [pauliZ, Matrix.conjTranspose_apply]

/-- a solver with one momentum and the mean field Hamiltonian `σ_y + σ_z` -/
def badSolver : Solver 2 (Fin 1) := { beta := 1, mu := 0, ekMF := fun _ => pauliY + pauliZ, U := fun _ _ _ _ => 0 }

theorem bad_sq (t : ℝ) : (pauliY + pauliZ + (t : ℂ) • pauliY) * (pauliY + pauliZ + (t : ℂ) • pauliY)
    = ((Real.sqrt ((1 + t) ^ 2 + 1) ^ 2 : ℝ) : ℂ) • 1 := by
  rw [Real.sq_sqrt (by positivity)]
  have hI := Complex.I_mul_I
  ext i j
  fin_cases i <;> fin_cases j <;> simp [pauliY, pauliZ, Matrix.mul_apply, Fin.sum_univ_two]
  · linear_combination (-(1 + (t : ℂ)) ^ 2) * hI
  · linear_combination (-(1 + (t : ℂ)) ^ 2) * hI

theorem bad_average (t : ℝ) : average (κ := Fin 1) 1 (fun k => badSolver.ekMF k
      - (badSolver.mu : ℂ) • 1 + (t : ℂ) • pauliY) pauliZ
    = ((2 * ((HartreeFock.fermi 1 (Real.sqrt ((1 + t) ^ 2 + 1)) - 1 / 2)
      / Real.sqrt ((1 + t) ^ 2 + 1)) : ℝ) : ℂ) := by
  have hs0 : Real.sqrt ((1 + t) ^ 2 + 1) ≠ 0 := (Real.sqrt_pos.2 (by positivity)).ne'
  have hH : (pauliY + pauliZ + (t : ℂ) • pauliY).IsHermitian :=
    add_smul_isHermitian (pauliY_herm.add pauliZ_herm) pauliY_herm t
  simp only [average, badSolver, Complex.ofReal_zero, zero_smul, sub_zero, Finset.univ_unique,
    Finset.sum_const, Finset.card_singleton, one_smul, Fintype.card_unique, Nat.cast_one, div_one]
  rw [fermiMatrix_of_sq 1 _ hs0 hH (bad_sq t)]
  generalize (HartreeFock.fermi 1 (Real.sqrt ((1 + t) ^ 2 + 1)) - 1 / 2) / Real.sqrt ((1 + t) ^ 2 + 1) = g
  simp [Matrix.trace, Fin.sum_univ_two, pauliY, pauliZ, Matrix.mul_apply]
  ring

/-- C82 is violated for complex hermitian dispersions: for the Hamiltonian `σ_y + σ_z` at inverse temperature
one the average of `σ_z` changes at a non-zero rate with a field along `σ_y`, but the bare response is exactly
zero for every step and every eigensolver. -/
theorem C82_bare_response_violated :
    (∀ k, (badSolver.ekMF k).IsHermitian) ∧ pauliY.IsHermitian ∧ pauliZ.IsHermitian ∧
    (∀ (eig : Lindhard.Eig (Fin 2)) (eps : ℝ),
      bareResponse (hfrOf eig badSolver.U (baseInit badSolver eps)) pauliY pauliZ = 0) ∧
    ∃ L : ℂ, L ≠ 0 ∧ HasDerivAt (fun t : ℝ => average badSolver.beta (fun k => badSolver.ekMF k
      - (badSolver.mu : ℂ) • 1 + (t : ℂ) • pauliY) pauliZ) (-L) 0 := by
  refine ⟨fun _ => pauliY_herm.add pauliZ_herm, pauliY_herm, pauliZ_herm, fun eig eps => ?_, ?_⟩
  · refine bareResponse_antisymm eig _ _ _ _ ?_ ?_
    · ext i j; fin_cases i <;> fin_cases j <;> simp [pauliY]
    · intro c d hcd
      fin_cases c <;> fin_cases d <;> simp_all [pauliZ]
  · have h2 : (0 : ℝ) < Real.sqrt 2 := by positivity
    set q := Real.sqrt 2 with hq
    have hqq : q ^ 2 = 2 := Real.sq_sqrt (by norm_num)
    -- derivative of the radius
    have hr : HasDerivAt (fun t : ℝ => Real.sqrt ((1 + t) ^ 2 + 1)) (1 / q) 0 := by
      have h1 : HasDerivAt (fun t : ℝ => (1 + t) ^ 2 + 1) 2 0 := by
        have := ((((hasDerivAt_id (0 : ℝ)).const_add 1).pow 2).add_const 1)
        exact this.congr_deriv (by simp)
      have h3 := h1.sqrt (by norm_num)
      refine h3.congr_deriv ?_
      have : Real.sqrt ((1 + 0) ^ 2 + 1) = q := by rw [hq]; norm_num
      rw [this]
      field_simp
    have hr0 : Real.sqrt ((1 + (0 : ℝ)) ^ 2 + 1) = q := by rw [hq]; norm_num
    let G : ℝ → ℝ := fun s => 2 * ((HartreeFock.fermi 1 s - 1 / 2) / s)
    let G' : ℝ := 2 * (((-(Real.exp q) / (Real.exp q + 1) ^ 2) * q - (1 / (Real.exp q + 1) - 1 / 2)) / q ^ 2)
    have hG : HasDerivAt G G' q := by
      have hf : HasDerivAt (fun s => HartreeFock.fermi 1 s) (-(Real.exp q) / (Real.exp q + 1) ^ 2) q := by
        have h1 : HasDerivAt (fun s : ℝ => Real.exp s + 1) (Real.exp q) q :=
          (Real.hasDerivAt_exp q).add_const 1
        have h3 := h1.inv (by positivity)
        refine h3.congr_of_eventuallyEq (Eventually.of_forall fun s => ?_)
        simp [HartreeFock.fermi]
      have h4 := ((hf.sub_const (1 / 2)).div (hasDerivAt_id q) h2.ne').const_mul 2
      refine h4.congr_deriv ?_
      simp only [G', HartreeFock.fermi, one_mul, id, mul_one]
    have hcomp : HasDerivAt (fun t : ℝ => G (Real.sqrt ((1 + t) ^ 2 + 1))) (G' * (1 / q)) 0 := by
      rw [← hr0] at hG
      exact HasDerivAt.comp (h₂ := G) (h := fun t : ℝ => Real.sqrt ((1 + t) ^ 2 + 1)) (0 : ℝ) hG hr
    have hpos : 0 < G' := by
      have hE := Real.exp_pos q
      have key : 2 * Real.exp q * q < (Real.exp q) ^ 2 - 1 := by
        have h5 : q < Real.sinh q := Real.self_lt_sinh_iff.2 h2
        rw [Real.sinh_eq, Real.exp_neg] at h5
        have h6 : q * (2 * Real.exp q) < (Real.exp q - (Real.exp q)⁻¹) / 2 * (2 * Real.exp q) :=
          mul_lt_mul_of_pos_right h5 (by positivity)
        have h7 : (Real.exp q - (Real.exp q)⁻¹) / 2 * (2 * Real.exp q) = (Real.exp q) ^ 2 - 1 := by
          field_simp
        linarith
      have : G' = ((Real.exp q) ^ 2 - 1 - 2 * Real.exp q * q) / (q ^ 2 * (Real.exp q + 1) ^ 2) := by
        simp only [G']
        field_simp
        ring
      rw [this]
      have h8 : 0 < (Real.exp q) ^ 2 - 1 - 2 * Real.exp q * q := by linarith
      positivity
    refine ⟨-((G' * (1 / q) : ℝ) : ℂ), ?_, ?_⟩
    · rw [neg_ne_zero]
      exact_mod_cast (mul_pos hpos (by positivity)).ne'
    · rw [neg_neg]
      refine hcomp.ofReal_comp.congr_of_eventuallyEq (Eventually.of_forall fun t => ?_)
      exact bad_average t

/-! ## C84: the step, and the momentum resolved bubble -/

/-- C83 violated: for a complex hermitian dispersion the response is not the derivative of the self-consistent average, already
without interaction: the self-consistent density matrix of `σ_y + σ_z` in the field `t σ_y` is unique, the average of `σ_z`
changes with `t`, and the reported response is zero for every step. -/
theorem C83_response_violated :
    (∀ k, (badSolver.ekMF k).IsHermitian) ∧ pauliY.IsHermitian ∧ pauliZ.IsHermitian ∧
    (∀ (eig : Lindhard.Eig (Fin 2)) (eps : ℝ),
      response (hfrOf eig badSolver.U (baseInit badSolver eps)) pauliY pauliZ = 0) ∧
    ∃ (ρ : ℝ → Matrix (Fin 2) (Fin 2) ℂ) (L : ℂ), L ≠ 0 ∧
      (∀ (t : ℝ) (x : Matrix (Fin 2) (Fin 2) ℂ), SelfConsistent (κ := Fin 1) badSolver.beta badSolver.mu badSolver.ekMF badSolver.U
        ((t : ℂ) • pauliY) x ↔ x = ρ t) ∧
      HasDerivAt (fun t : ℝ => Matrix.trace (ρ t * pauliZ)) (-L) 0 := by
  obtain ⟨h1, h2, h3, h4, L, hL, hd⟩ := C82_bare_response_violated
  have hM : ∀ x : Matrix (Fin 2) (Fin 2) ℂ, HartreeFock.meanField badSolver.U x = 0 := by
    intro x
    ext i j
    simp [HartreeFock.meanField, badSolver]
  refine ⟨h1, h2, h3, fun eig eps => ?_, fun t => fermiMatrix badSolver.beta (badSolver.ekMF 0 - (badSolver.mu : ℂ) • 1
    + (t : ℂ) • pauliY), L, hL, fun t x => ?_, ?_⟩
  · rw [← h4 eig eps]
    have hU : toMat badSolver.U = 0 := rfl
    simp only [response, bareResponse, hfrOf, hU, mul_zero, sub_zero, inv_one, one_mul]
  · unfold SelfConsistent
    rw [hM]
    simp
  · refine hd.congr_of_eventuallyEq (Filter.Eventually.of_forall fun t => ?_)
    simp [average]

/-- C84: the value of the step given to either class is not used. -/
theorem C84_step_ignored (eig : Lindhard.Eig (Fin n)) (s : Solver n κ) (eps : ℝ) :
    (hfrInit eig s eps).base.eps = 1 / 10 ^ 9 ∧ (hrInit eig s eps).base.eps = 1 / 10 ^ 9 ∧
    hfrInit eig s eps = hfrOf eig s.U (baseInit s (1 / 10 ^ 9)) ∧
    hrInit eig s eps = hrOf eig s.U (baseInit s (1 / 10 ^ 9)) :=
  ⟨rfl, rfl, rfl, rfl⟩

/-- one orbital at zero energy -/
def atomSolver : Solver 1 (Fin 1) := { beta := 1, mu := 0, ekMF := fun _ => 0, U := fun _ _ _ _ => 0 }

/-- finite difference response of one orbital at zero energy -/
theorem atom_bare {eig : Lindhard.Eig (Fin 1)} (hs : Lindhard.EigSpec eig) (eps : ℝ) (h0 : eps ≠ 0) :
    hrBareResponse (hrOf eig atomSolver.U (baseInit atomSolver eps)) 1 1
      = .ok (((1 / 2 - HartreeFock.fermi 1 eps) / eps : ℝ) : ℂ) := by
  have hd : diagonalOp (1 : Matrix (Fin 1) (Fin 1) ℂ) := fun a b h => absurd (Subsingleton.elim a b) h
  have hF : (fun i j : Fin 1 => if i = 0 ∧ j = 0 then (1 : ℂ) else 0) = (1 : Matrix (Fin 1) (Fin 1) ℂ) := by
    funext i j
    rw [Subsingleton.elim i 0, Subsingleton.elim j 0]
    simp
  have hk : ∀ k, ((baseInit atomSolver eps).ek k) = 0 := fun k => by simp [baseInit, atomSolver]
  have hq : (eps : ℂ) ≠ 0 := by exact_mod_cast h0
  have hp : fermiMatrix 1 ((eps : ℂ) • (1 : Matrix (Fin 1) (Fin 1) ℂ)) 0 0 = (HartreeFock.fermi 1 eps : ℂ) := by
    rw [fermiMatrix_of_sq 1 eps h0 (h := (eps : ℂ) • (1 : Matrix (Fin 1) (Fin 1) ℂ))
      (by simp [Matrix.IsHermitian, Matrix.conjTranspose_smul]) (by
        rw [Matrix.smul_mul, one_mul, smul_smul]; push_cast; rw [sq])]
    simp only [Matrix.add_apply, Matrix.smul_apply, Matrix.one_apply_eq, smul_eq_mul, mul_one]
    push_cast
    field_simp
    ring
  have hm : fermiMatrix 1 (-((eps : ℂ) • (1 : Matrix (Fin 1) (Fin 1) ℂ))) 0 0
      = 1 - (HartreeFock.fermi 1 eps : ℂ) := by
    rw [fermiMatrix_of_sq 1 eps h0 (h := -((eps : ℂ) • (1 : Matrix (Fin 1) (Fin 1) ℂ)))
      (by simp [Matrix.IsHermitian, Matrix.conjTranspose_smul]) (by
        rw [neg_mul_neg, Matrix.smul_mul, one_mul, smul_smul]; push_cast; rw [sq])]
    simp only [Matrix.add_apply, Matrix.smul_apply, Matrix.neg_apply, Matrix.one_apply_eq, smul_eq_mul, mul_one]
    push_cast
    field_simp
    ring
  have hdr : drhoK eig (baseInit atomSolver eps) 1 0 0 0
      = (2 * (eps : ℂ))⁻¹ * ((HartreeFock.fermi 1 eps : ℂ) - (1 - (HartreeFock.fermi 1 eps : ℂ))) := by
    rw [drhoK_eq hs _ 0 (by rw [hk]; exact Matrix.isHermitian_zero) Matrix.isHermitian_one, hk, zero_add,
      zero_sub]
    simp only [Matrix.smul_apply, Matrix.sub_apply, smul_eq_mul]
    rw [← hp, show (baseInit atomSolver eps).beta = 1 from rfl,
      show (baseInit atomSolver eps).eps = eps from rfl, hm, hp]
  simp only [hrBareResponse, hd, not_true, if_false, hrOf, chi0ab, drho, Finset.univ_unique,
    Finset.sum_singleton, Fintype.card_unique, Nat.cast_one, div_one, Matrix.one_apply_eq, one_mul, mul_one,
    Fin.default_eq_zero, hF]
  rw [hdr]
  congr 1
  push_cast
  field_simp
  ring

/-- C84 is violated: for one orbital at zero energy and unit temperature the response computed with a step of
one differs from the one returned by the class when the user asks for a step of one. -/
theorem C84_step_violated {eig : Lindhard.Eig (Fin 1)} (hs : Lindhard.EigSpec eig) :
    hrBareResponse (hrInit eig atomSolver 1) 1 1
      ≠ hrBareResponse (hrOf eig atomSolver.U (baseInit atomSolver 1)) 1 1 := by
  have h1 : hrInit eig atomSolver 1 = hrOf eig atomSolver.U (baseInit atomSolver (1 / 10 ^ 9)) := rfl
  rw [h1, atom_bare hs _ (by norm_num), atom_bare hs _ (by norm_num)]
  intro h
  have h2 : (1 / 2 - HartreeFock.fermi 1 (1 / 10 ^ 9)) / (1 / 10 ^ 9)
      = (1 / 2 - HartreeFock.fermi 1 1) / 1 := by
    have := Except.ok.inj h
    exact_mod_cast this
  -- the left side is close to one quarter, the right side is not
  have hlow : (1 / 10 ^ 9 : ℝ) + 1 ≤ Real.exp (1 / 10 ^ 9) := Real.add_one_le_exp _
  have hE := Real.exp_one_lt_d9
  have hpos := Real.exp_pos 1
  have hf1 : HartreeFock.fermi 1 (1 / 10 ^ 9) ≤ 1 / (1 / 10 ^ 9 + 2) := by
    unfold HartreeFock.fermi
    rw [one_mul]
    exact one_div_le_one_div_of_le (by norm_num) (by linarith)
  have hf2 : 1 / (2.7182818286 + 1) < HartreeFock.fermi 1 1 := by
    unfold HartreeFock.fermi
    rw [one_mul]
    exact one_div_lt_one_div_of_lt (by positivity) (by linarith)
  norm_num at h2 hf1 hf2
  linarith

/-- C84 is violated: reading out the momentum resolved bubble fails for every object. -/
theorem C84_chi0_k_violated (eig : Lindhard.Eig (Fin n)) (s : Solver n κ) (eps : ℝ) :
    computeChi0K (hfrInit eig s eps) = .error "AttributeError" := rfl

end Verif.HfResponse
