import Verif.Agree.Bse
import Verif.HfResponse.DFermi
import Verif.HfResponse.Violations
import Verif.Lindhard.Conserved

/-!
# C130: the Hartree-Fock response and the RPA of the Lindhard bubble

`HartreeFockResponse` differentiates the density matrix numerically and sums the ladder of the interaction of the
Hartree-Fock solver.  `lindhard_chi00` sums Fermi functions over bands and `solve_rpa_PH` sums the ladder.  The same
bands and the same interaction give the same static, uniform susceptibility.
-/

noncomputable section

set_option linter.unusedSectionVars false

namespace Verif.Agree

open Verif.Parallel Verif.Fourier Verif.HfResponse Filter Topology Matrix
open Verif.Rpa (pairMat matTensor rpaPoint solveRpaPH)

theorem fermi_lindhard (beta x : ℝ) : Lindhard.fermi (x * beta) = HartreeFock.fermi beta x := by
  rw [Lindhard.C20_fermi, HartreeFock.fermi, mul_comm]

/-- `β / (4 cosh²(βx/2))` is the slope of the Fermi function -/
theorem slope_eq (beta x : ℝ) :
    beta / (4 * Real.cosh (x * beta / 2) ^ 2) = beta * (HartreeFock.fermi beta x * (1 - HartreeFock.fermi beta x)) := by
  have h1 : Real.exp (beta * x) = Real.exp (x * beta / 2) * Real.exp (x * beta / 2) := by
    rw [← Real.exp_add]; ring_nf
  have h0 := Real.exp_pos (x * beta / 2)
  have hf : HartreeFock.fermi beta x = 1 / (Real.exp (beta * x) + 1) := by
    rw [← fermi_lindhard, Lindhard.C20_fermi, mul_comm]
  rw [hf, h1, Real.cosh_eq, Real.exp_neg]
  set y := Real.exp (x * beta / 2)
  have h2 : y * y + 1 ≠ 0 := by positivity
  field_simp
  ring

/-- the static factor of the Lindhard formula is minus the divided difference of the Fermi function -/
theorem totalFactor_zero {tol beta : ℝ} (ht : 0 < tol) {x y : ℝ} (hs : |y - x| < tol → y = x) :
    Lindhard.totalFactor tol beta 0 x y = ((-(divDiff beta x y) : ℝ) : ℂ) := by
  by_cases h : y = x
  · subst h
    rw [Lindhard.totalFactor_self tol beta ht, if_pos (by simpa using ht), divDiff, if_pos rfl, slope_eq]
    congr 1
    ring
  · have h1 : ¬ (‖(0 : ℂ)‖ < tol ∧ |y - x| < tol) := fun h2 => h (hs h2.2)
    rw [Lindhard.totalFactor]
    dsimp only
    rw [if_neg h1, divDiff, if_neg (fun h2 => h h2.symm), fermi_lindhard, fermi_lindhard, zero_add,
      ← Complex.ofReal_div]
    congr 1
    have h3 : x - y ≠ 0 := sub_ne_zero.2 fun h2 => h h2.symm
    have h4 : y - x ≠ 0 := sub_ne_zero.2 h
    field_simp
    ring

variable {d : ℕ} {n : Fin d → ℕ} [∀ i, NeZero (n i)] {m : ℕ}

/-- no two levels at the same momentum are closer than the tolerance of the Lindhard code without being equal -/
def Separated (eig : Lindhard.Eig (Fin m)) (tol mu : ℝ) (e : Lat n → Matrix (Fin m) (Fin m) ℂ) : Prop :=
  ∀ k i j, |(eig (e k - (mu : ℂ) • 1)).1 j - (eig (e k - (mu : ℂ) • 1)).1 i| < tol →
    (eig (e k - (mu : ℂ) • 1)).1 j = (eig (e k - (mu : ℂ) • 1)).1 i

theorem unit_conj (p : Matrix (Fin m) (Fin m) ℂ) (x y i j : Fin m) :
    (pᴴ * unit y x * p) i j = pᴴ i y * p x j := by
  rw [Matrix.mul_apply, Finset.sum_eq_single x]
  · rw [Matrix.mul_apply, Finset.sum_eq_single y]
    · simp [unit]
    · intro z _ hz; simp [unit, hz]
    · simp
  · intro z _ hz
    rw [Matrix.mul_apply, Finset.sum_eq_zero, zero_mul]
    intro w _
    simp [unit, hz]
  · simp

/-- the static, uniform Lindhard bubble is minus the average derivative of the Fermi function of the bands -/
theorem lindhard_static {ranks : ℕ} (hr : 0 < ranks) {eig : Lindhard.Eig (Fin m)} (hs : Lindhard.EigSpec eig)
    {tol : ℝ} (ht : 0 < tol) (s : Solver m (Lat n)) (eps : ℝ) {kmesh : List (Lat n)} (hnd : kmesh.Nodup) (hall : ∀ k, k ∈ kmesh)
    (he : ∀ k, (s.ekMF k).IsHermitian) (hsep : Separated eig tol s.mu s.ekMF) (a b c f : Fin m) :
    Lindhard.lindhard ranks eig tol s.beta s.mu kmesh s.ekMF 0 0 a b c f = chi0Lim (baseInit s eps) a b c f := by
  rw [Lindhard.lindhard_eq ranks hr eig tol s.beta s.mu kmesh hnd hall]
  simp only [Pi.smul_apply, Finset.sum_apply, smul_eq_mul, chi0Lim, baseInit, add_zero]
  rw [div_eq_inv_mul]
  congr 1
  refine Finset.sum_congr rfl fun k _ => ?_
  rw [dFermi_eig s.beta (Lindhard.sys_diag hs s.mu he k)]
  simp only [Lindhard.dbl, Matrix.mul_apply, Matrix.of_apply, Finset.sum_mul, ← Finset.sum_neg_distrib]
  have hk := hsep k
  change ∀ i j, |(Lindhard.sys eig s.mu s.ekMF k).1 j - (Lindhard.sys eig s.mu s.ekMF k).1 i| < tol → _ at hk
  set p := Lindhard.sys eig s.mu s.ekMF k
  refine Finset.sum_congr rfl fun i _ => Finset.sum_congr rfl fun j _ => ?_
  have hu := unit_conj p.2 a b j i
  simp only [Matrix.mul_apply, Finset.sum_mul] at hu
  rw [hu, totalFactor_zero ht (hk i j)]
  have hd : divDiff s.beta (p.1 i) (p.1 j) = divDiff s.beta (p.1 j) (p.1 i) := by
    unfold divDiff
    by_cases h : p.1 i = p.1 j
    · rw [if_pos h, if_pos h.symm, h]
    · rw [if_neg h, if_neg (fun h2 => h h2.symm), ← neg_sub (p.1 j), ← neg_sub (HartreeFock.fermi s.beta (p.1 j)),
        neg_div_neg_eq]
  rw [hd]
  push_cast
  ring

theorem solvePH_zero {ranks : ℕ} (hr : 0 < ranks) {kmesh : List (Lat n)} (hnd : kmesh.Nodup) (hall : ∀ k, k ∈ kmesh)
    (chi : Lat n → Rpa.T4 (Fin m) ℂ) (U : Rpa.T4 (Fin m) ℂ) :
    solveRpaPH ranks kmesh chi U 0 = rpaPoint (chi 0) U := by
  rw [solveRpaPH, C02_distributedAssign ranks hr kmesh hnd _, if_pos (hall 0)]

/-- C130, response: for a dispersion with real hopping at every momentum the tensors of `HartreeFockResponse` tend,
as the numerical step goes to zero, to the static uniform Lindhard bubble and to the susceptibility that
`solve_rpa_PH` makes of it with the interaction of the Hartree-Fock solver.  The hypotheses ask for a working
eigensolver (any two, the two codes need not use the same one), for no pair of levels in the window in which the
Lindhard code replaces a difference quotient by a derivative without being degenerate, and for a regular equation. -/
theorem C130_response_partial {ranks : ℕ} (hr : 0 < ranks) {eig eig' : Lindhard.Eig (Fin m)}
    (hs : Lindhard.EigSpec eig) (hs' : Lindhard.EigSpec eig') {tol : ℝ} (ht : 0 < tol) (s : Solver m (Lat n))
    {kmesh : List (Lat n)} (hnd : kmesh.Nodup) (hall : ∀ k, k ∈ kmesh) (he : ∀ k, (s.ekMF k).IsHermitian)
    (hre : ∀ k, (s.ekMF k)ᵀ = s.ekMF k) (hsep : Separated eig' tol s.mu s.ekMF)
    (hu : IsUnit (1 - pairMat (Lindhard.lindhard ranks eig' tol s.beta s.mu kmesh s.ekMF 0 0) * pairMat s.U).det)
    (a b c f : Fin m) :
    Tendsto (fun eps => (hfrOf eig s.U (baseInit s eps)).chi0 a b c f) (𝓝[≠] 0)
      (𝓝 (Lindhard.lindhard ranks eig' tol s.beta s.mu kmesh s.ekMF 0 0 a b c f)) ∧
    Tendsto (fun eps => (hfrOf eig s.U (baseInit s eps)).chi a b c f) (𝓝[≠] 0)
      (𝓝 (solveRpaPH ranks kmesh (fun q => Lindhard.lindhard ranks eig' tol s.beta s.mu kmesh s.ekMF 0 q) s.U 0
        a b c f)) := by
  have h0 : Lindhard.lindhard ranks eig' tol s.beta s.mu kmesh s.ekMF 0 0 = chi0Lim (baseInit s 0) := by
    funext a b c f
    exact lindhard_static hr hs' ht s 0 hnd hall he hsep a b c f
  rw [solvePH_zero hr hnd hall, h0]
  rw [h0] at hu
  have hk : ∀ k, ((baseInit s 0).ek k).IsHermitian := by
    intro k
    have h1 : ((s.mu : ℂ) • (1 : Matrix (Fin m) (Fin m) ℂ)).IsHermitian := by
      rw [Matrix.IsHermitian, conjTranspose_smul, conjTranspose_one]
      simp
    exact (he k).sub h1
  have htr : ∀ k, ((baseInit s 0).ek k)ᵀ = (baseInit s 0).ek k := by
    intro k
    change (s.ekMF k - (s.mu : ℂ) • 1)ᵀ = s.ekMF k - (s.mu : ℂ) • 1
    rw [transpose_sub, hre, transpose_smul, transpose_one]
  exact ⟨chi0_tendsto hs (baseInit s 0) hk htr a b c f, chi_tendsto hs s.U (baseInit s 0) hk htr hu a b c f⟩

/-- a tolerance that separates the levels exists for every dispersion -/
theorem exists_separated (eig : Lindhard.Eig (Fin m)) (mu : ℝ) (e : Lat n → Matrix (Fin m) (Fin m) ℂ) :
    ∃ tol : ℝ, 0 < tol ∧ Separated eig tol mu e := by
  have h : ∀ᶠ t : ℝ in 𝓝[>] 0, ∀ k i j, |(eig (e k - (mu : ℂ) • 1)).1 j - (eig (e k - (mu : ℂ) • 1)).1 i| < t →
      (eig (e k - (mu : ℂ) • 1)).1 j = (eig (e k - (mu : ℂ) • 1)).1 i := by
    refine eventually_all.2 fun k => eventually_all.2 fun i => eventually_all.2 fun j => ?_
    by_cases hx : (eig (e k - (mu : ℂ) • 1)).1 j = (eig (e k - (mu : ℂ) • 1)).1 i
    · exact Eventually.of_forall fun _ _ => hx
    · have hp : 0 < |(eig (e k - (mu : ℂ) • 1)).1 j - (eig (e k - (mu : ℂ) • 1)).1 i| := abs_pos.2 (sub_ne_zero.2 hx)
      have hm : ∀ᶠ t : ℝ in 𝓝[>] 0, t < |(eig (e k - (mu : ℂ) • 1)).1 j - (eig (e k - (mu : ℂ) • 1)).1 i| :=
        nhdsWithin_le_nhds (Iio_mem_nhds hp)
      exact hm.mono fun t ht h2 => absurd (lt_trans h2 ht) (lt_irrefl _)
  obtain ⟨t, h1, h2⟩ := (h.and self_mem_nhdsWithin).exists
  exact ⟨t, h2, h1⟩

/-- contraction of the limit with two operators, for every hermitian dispersion -/
theorem chi0Lim_pair {κ : Type} [Fintype κ] (b : Base m κ) (op1 op2 : Matrix (Fin m) (Fin m) ℂ) :
    ∑ x, ∑ y, ∑ c, ∑ f, op1 x y * chi0Lim b x y c f * op2 c f
      = -((∑ k, Matrix.trace (dFermi b.beta (b.ek k) op1ᵀ * op2ᵀ)) / (Fintype.card κ : ℂ)) := by
  have h1 : ∀ k, Matrix.trace (dFermi b.beta (b.ek k) op1ᵀ * op2ᵀ)
      = ∑ A : Fin m × Fin m, ∑ B : Fin m × Fin m,
        op1 A.1 A.2 * dFermi b.beta (b.ek k) (unit A.2 A.1) B.1 B.2 * op2 B.1 B.2 := by
    intro k
    simp only [Matrix.trace, Matrix.diag_apply, Matrix.mul_apply, Matrix.transpose_apply]
    rw [← Fintype.sum_prod_type' (f := fun c f => dFermi b.beta (b.ek k) op1ᵀ c f * op2 c f), Finset.sum_comm]
    refine Finset.sum_congr rfl fun B _ => ?_
    rw [dFermi_sum, Finset.sum_comm, Fintype.sum_prod_type]
    simp only [Finset.sum_mul, Matrix.transpose_apply]
  rw [sum4_pair]
  have h2 : ∀ A B : Fin m × Fin m, op1 A.1 A.2 * chi0Lim b A.1 A.2 B.1 B.2 * op2 B.1 B.2
      = ∑ k, -((op1 A.1 A.2 * dFermi b.beta (b.ek k) (unit A.2 A.1) B.1 B.2 * op2 B.1 B.2)
        / (Fintype.card κ : ℂ)) := by
    intro A B
    simp only [chi0Lim, Finset.sum_div, Finset.mul_sum, Finset.sum_mul]
    exact Finset.sum_congr rfl fun k _ => by ring
  simp only [h2, h1]
  rw [Finset.sum_congr rfl fun A _ => Finset.sum_comm, Finset.sum_comm, Finset.sum_div, ← Finset.sum_neg_distrib]
  refine Finset.sum_congr rfl fun k _ => ?_
  simp only [Finset.sum_div, Finset.sum_neg_distrib]

/-- the solver of `C82_bare_response_violated` on a lattice: bands of `σ_y + σ_z` at every momentum, no interaction -/
def twisted (n : Fin d → ℕ) : Solver 2 (Lat n) :=
  { beta := 1, mu := 0, ekMF := fun _ => pauliY + pauliZ, U := fun _ _ _ _ => 0 }

theorem twisted_rate : (∑ k : Lat n, Matrix.trace (dFermi (twisted n).beta ((baseInit (twisted n) 0).ek k) pauliYᵀ
    * pauliZᵀ)) / (Fintype.card (Lat n) : ℂ) ≠ 0 := by
  obtain ⟨h1, -, -, -, L, hL, hd⟩ := C82_bare_response_violated
  have h2 := average_hasDerivAt (κ := Fin 1) badSolver.beta (fun k => badSolver.ekMF k - (badSolver.mu : ℂ) • 1)
    (fun k => base_hermitian badSolver h1 k) pauliY pauliZ
  have h3 := hd.unique h2
  simp only [Finset.univ_unique, Finset.sum_singleton, Fintype.card_unique, Nat.cast_one, div_one] at h3
  have hy : pauliYᵀ = -pauliY := by ext i j; fin_cases i <;> fin_cases j <;> simp [pauliY]
  have hz : pauliZᵀ = pauliZ := by ext i j; fin_cases i <;> fin_cases j <;> simp [pauliZ]
  have h4 : ∀ k : Lat n, Matrix.trace (dFermi (twisted n).beta ((baseInit (twisted n) 0).ek k) pauliYᵀ * pauliZᵀ)
      = L := by
    intro k
    rw [hy, hz, map_neg, neg_mul, Matrix.trace_neg]
    change -Matrix.trace (dFermi badSolver.beta (badSolver.ekMF 0 - (badSolver.mu : ℂ) • 1) pauliY * pauliZ) = L
    rw [neg_eq_iff_eq_neg]
    exact h3.symm
  simp only [h4, Finset.sum_const, Finset.card_univ, nsmul_eq_mul]
  have hc : (Fintype.card (Lat n) : ℂ) ≠ 0 := Nat.cast_ne_zero.2 Fintype.card_ne_zero
  rw [mul_div_cancel_left₀ _ hc]
  exact hL

/-- C130, response: violated for hermitian dispersions with complex hopping.  For bands of `σ_y + σ_z` and no
interaction the Lindhard bubble, and with it `solve_rpa_PH`, couples `σ_y` and `σ_z`, and the
`HartreeFockResponse` of the same bands is exactly zero for every step; every working eigensolver, every number of
processes and every tolerance that separates the levels (`exists_separated`). -/
theorem C130_response_violated {kmesh : List (Lat n)} (hnd : kmesh.Nodup) (hall : ∀ k, k ∈ kmesh) :
    (∀ k, ((twisted n).ekMF k).IsHermitian) ∧
    (∀ (eig : Lindhard.Eig (Fin 2)) (eps : ℝ),
      response (hfrOf eig (twisted n).U (baseInit (twisted n) eps)) pauliY pauliZ = 0) ∧
    ∀ {ranks : ℕ} (_ : 0 < ranks) {eig : Lindhard.Eig (Fin 2)} (_ : Lindhard.EigSpec eig) {tol : ℝ} (_ : 0 < tol),
      Separated eig tol (twisted n).mu (twisted n).ekMF →
      ∑ a, ∑ b, ∑ c, ∑ f, pauliY a b * solveRpaPH ranks kmesh (fun q =>
        Lindhard.lindhard ranks eig tol (twisted n).beta (twisted n).mu kmesh (twisted n).ekMF 0 q) (twisted n).U 0
          a b c f * pauliZ c f ≠ 0 := by
  have he : ∀ k, ((twisted n).ekMF k).IsHermitian := fun _ => pauliY_herm.add pauliZ_herm
  have hU : toMat (twisted n).U = 0 := rfl
  refine ⟨he, fun eig eps => ?_, fun {ranks} hr {eig} hs {tol} ht hsep => ?_⟩
  · have h1 : (hfrOf eig (twisted n).U (baseInit (twisted n) eps)).chi
        = (hfrOf eig (twisted n).U (baseInit (twisted n) eps)).chi0 := by
      simp only [hfrOf, hU, mul_zero, sub_zero, inv_one, one_mul]
    rw [response, h1]
    refine bareResponse_antisymm eig _ _ _ _ ?_ ?_
    · ext i j; fin_cases i <;> fin_cases j <;> simp [pauliY]
    · intro c d hcd
      fin_cases c <;> fin_cases d <;> simp_all [pauliZ]
  · have h0 : pairMat (twisted n).U = 0 := rfl
    have h1 : solveRpaPH ranks kmesh (fun q => Lindhard.lindhard ranks eig tol (twisted n).beta (twisted n).mu kmesh
        (twisted n).ekMF 0 q) (twisted n).U 0 = chi0Lim (baseInit (twisted n) 0) := by
      rw [solvePH_zero hr hnd hall]
      funext a b c f
      rw [← lindhard_static hr hs ht (twisted n) 0 hnd hall he hsep a b c f, rpaPoint, h0, mul_zero, sub_zero, inv_one,
        one_mul]
      rfl
    rw [h1, chi0Lim_pair]
    exact neg_ne_zero.2 twisted_rate

end Verif.Agree
