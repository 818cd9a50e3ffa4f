import Verif.Fock.Props
import Verif.FitDlr.ThermalMatrix
import Mathlib.LinearAlgebra.Matrix.Kronecker

/-!
# C121: bound for the result of the drivers, entropy, and examples
-/

noncomputable section

set_option linter.unusedSectionVars false

namespace Verif.Fock

open NormedSpace Matrix Verif.Fourier Verif.Operators
open Verif.HartreeFock (State Params DensityOf EnergyOf updateTotalEnergy meanField eInt density momentumDensity
  WickState solveIterState)

variable {d : ℕ} {n : Fin d → ℕ} [∀ i, NeZero (n i)] {ι : Type} [LinearOrder ι]
variable {s : Type} [Fintype s] [DecidableEq s]

section General

variable {N : ℕ} [NeZero N] {κ V : Type} [Fintype κ] [Nonempty κ]

/-- the energies of a state whose energies belong to it are those of `update_total_energy` -/
theorem energy_unique (p : Params N κ V) (hb : 0 < p.beta) (hs : Lindhard.EigSpec p.eig)
    (hsv : Lindhard.EigSpec p.eigv) (rho0 : Matrix (Fin N) (Fin N) ℂ)
    (hh : ∀ k, (p.ek k + meanField p.U rho0).IsHermitian) (st : State N κ)
    (hd : DensityOf p.U p.beta p.ek rho0 st) (he : EnergyOf p.U p.beta p.ek st) :
    st.omega0 = (updateTotalEnergy p st).omega0 ∧ st.omega = (updateTotalEnergy p st).omega ∧
    st.ekin = (updateTotalEnergy p st).ekin ∧ st.eint = eInt p.U st.rho := by
  obtain ⟨e1, e2, e3, e4, e5, e6, e7⟩ := HartreeFock.updateTotalEnergy_spec p hb.ne' hs hsv rho0 hh st hd
  have hK : (0 : ℝ) < Fintype.card κ := by exact_mod_cast Fintype.card_pos
  have h0 : st.omega0 = (updateTotalEnergy p st).omega0 := by
    have h1 := he.omega0
    have h2 := e1.omega0
    rw [e7, e3, ← h1] at h2
    have h3 := Real.exp_injective (Complex.ofReal_injective h2)
    have h4 : -p.beta * (Fintype.card κ : ℝ) ≠ 0 := mul_ne_zero (neg_ne_zero.2 hb.ne') hK.ne'
    exact (mul_left_cancel₀ h4 h3).symm
  have hi : st.eint = (updateTotalEnergy p st).eint := by
    rw [he.interaction, e1.interaction, e5]
  have hk : (updateTotalEnergy p st).rhok = st.rhok := by
    funext k
    rw [hd.rhok, e2.rhok, e7, e3]
  refine ⟨h0, ?_, ?_, he.interaction⟩
  · rw [he.omega, e1.omega, h0, hi]
  · rw [he.kinetic, e1.kinetic, hk]

/-- grand potential of one level in terms of its occupation -/
theorem level_entropy {beta : ℝ} (hb : beta ≠ 0) (y : ℝ) :
    -1 / beta * Real.log (1 + Real.exp (-beta * y))
      = y * HartreeFock.fermi beta y - 1 / beta * Real.binEntropy (HartreeFock.fermi beta y) := by
  have hE := Real.exp_pos (beta * y)
  have h1 : HartreeFock.fermi beta y = (Real.exp (beta * y) + 1)⁻¹ := by rw [HartreeFock.fermi, one_div]
  have h2 : 1 - HartreeFock.fermi beta y = Real.exp (beta * y) * (Real.exp (beta * y) + 1)⁻¹ := by
    rw [h1]; field_simp; ring
  have h3 : Real.log (1 - HartreeFock.fermi beta y)⁻¹ = Real.log (Real.exp (beta * y) + 1) - beta * y := by
    rw [h2, Real.log_inv, Real.log_mul hE.ne' (by positivity), Real.log_exp, Real.log_inv]; ring
  have h4 : Real.log (HartreeFock.fermi beta y)⁻¹ = Real.log (Real.exp (beta * y) + 1) := by
    rw [h1, inv_inv]
  have h5 : Real.log (1 + Real.exp (-beta * y)) = Real.log (Real.exp (beta * y) + 1) - beta * y := by
    have : 1 + Real.exp (-beta * y) = (Real.exp (beta * y) + 1) * (Real.exp (beta * y))⁻¹ := by
      rw [neg_mul, Real.exp_neg]; field_simp
    rw [this, Real.log_mul (by positivity) (by positivity), Real.log_inv, Real.log_exp]; ring
  rw [Real.binEntropy, h3, h4, h5]
  field_simp
  ring

/-- C121 (entropy): at a self-consistent solution `Omega = (E_kin - E_int) - mu N_tot - T S` with the entropy `S` of
the occupations of the mean field bands. The energy in this relation is `E_kin - E_int`, not `E_tot`. -/
theorem C121_entropy (p : Params N κ V) (hb : 0 < p.beta) (hs : Lindhard.EigSpec p.eig)
    (hsv : Lindhard.EigSpec p.eigv) (st : State N κ) (hh : ∀ k, (p.ek k + meanField p.U st.rho).IsHermitian)
    (hd : DensityOf p.U p.beta p.ek st.rho st) (he : EnergyOf p.U p.beta p.ek st) :
    st.omega = (st.ekin - st.eint) - st.mu * st.ntot
      - ((1 / p.beta * ((∑ k, ∑ b, Real.binEntropy
          (HartreeFock.fermi p.beta ((p.eigv (p.ek k + meanField p.U st.rho)).1 b - st.mu))) / Fintype.card κ) : ℝ) : ℂ) := by
  obtain ⟨-, h1, h2, h3⟩ := energy_unique p hb hs hsv st.rho hh st hd he
  have hek : st.ekMF = fun k => p.ek k + meanField p.U st.rho := by
    funext k; rw [hd.bands, hd.mean]
  have hherm : ∀ k, (st.ekMF k).IsHermitian := fun k => by rw [hek]; exact hh k
  set ev : κ → Fin N → ℝ := fun k => (p.eigv (p.ek k + meanField p.U st.rho)).1 with hev
  set W : κ → Matrix (Fin N) (Fin N) ℂ := fun k => (p.eigv (p.ek k + meanField p.U st.rho)).2 with hW
  have v1 : ∀ k, (W k)ᴴ * W k = 1 := fun k => (hsv _ (hh k)).1
  have v3 : ∀ k, p.ek k + meanField p.U st.rho = W k * diagonal (fun i => (ev k i : ℂ)) * (W k)ᴴ :=
    fun k => (hsv _ (hh k)).2.2
  have hrk : ∀ k, st.rhok k = W k * diagonal (fun i => (HartreeFock.fermi p.beta (ev k i - st.mu) : ℂ)) * (W k)ᴴ := by
    intro k
    have h := congrFun (HartreeFock.momentumDensity_eq p.beta st.mu hsv st.ekMF hherm) k
    rw [hd.rhok, ← h]
    ext a b
    rw [Matrix.mul_apply]
    refine Finset.sum_congr rfl fun i _ => ?_
    rw [Matrix.mul_diagonal, Matrix.conjTranspose_apply, hek]
    rfl
  -- averages over the bands
  have trb : ∀ k, trace ((p.ek k + meanField p.U st.rho) * st.rhok k)
      = ((∑ b, ev k b * HartreeFock.fermi p.beta (ev k b - st.mu) : ℝ) : ℂ) := by
    intro k
    rw [v3 k, hrk k]
    have : W k * diagonal (fun i => (ev k i : ℂ)) * (W k)ᴴ
        * (W k * diagonal (fun i => (HartreeFock.fermi p.beta (ev k i - st.mu) : ℂ)) * (W k)ᴴ)
        = W k * diagonal (fun i => ((ev k i * HartreeFock.fermi p.beta (ev k i - st.mu) : ℝ) : ℂ)) * (W k)ᴴ := by
      calc _ = W k * (diagonal (fun i => (ev k i : ℂ)) * ((W k)ᴴ * W k)
            * diagonal (fun i => (HartreeFock.fermi p.beta (ev k i - st.mu) : ℂ))) * (W k)ᴴ := by
            simp only [mul_assoc]
        _ = _ := by
            rw [v1, mul_one, Matrix.diagonal_mul_diagonal]
            simp only [Complex.ofReal_mul]
    rw [this, trace_of_diag_one (v1 k)]
  have trn : ∀ k, trace (st.rhok k) = ((∑ b, HartreeFock.fermi p.beta (ev k b - st.mu) : ℝ) : ℂ) := by
    intro k
    rw [hrk k, trace_of_diag_one (v1 k)]
  set K : ℂ := (Fintype.card κ : ℂ) with hK
  have hK0 : K ≠ 0 := by rw [hK]; exact_mod_cast Fintype.card_ne_zero
  have hMr : trace (meanField p.U st.rho * st.rho) = -2 * st.eint := by
    have := HartreeFock.C47_energy p.U st.rho
    rw [h3]
    linear_combination 2 * this
  have hsum : K⁻¹ * ∑ k, trace ((p.ek k + meanField p.U st.rho) * st.rhok k) = st.ekin - 2 * st.eint := by
    have e1 : ∀ k, trace ((p.ek k + meanField p.U st.rho) * st.rhok k)
        = trace (p.ek k * st.rhok k) + trace (meanField p.U st.rho * st.rhok k) := by
      intro k; rw [add_mul, Matrix.trace_add]
    simp only [e1]
    rw [Finset.sum_add_distrib, mul_add, ← he.kinetic, ← Matrix.trace_sum, ← Finset.mul_sum, ← smul_eq_mul,
      ← Matrix.trace_smul, ← mul_smul_comm, ← hd.rho, hMr]
    ring
  have hnum : K⁻¹ * ∑ k, trace (st.rhok k) = st.ntot := by
    conv_rhs => rw [hd.number, hd.rho]
    rw [Matrix.trace_smul, Matrix.trace_sum, smul_eq_mul]
  have hom : st.omega = (HartreeFock.omega0 p.beta st.mu ev : ℂ) + st.eint := by
    have : (updateTotalEnergy p st).omega
        = (HartreeFock.omega0 p.beta st.mu (fun k => (p.eigv (st.ekMF k)).1) : ℂ) + eInt p.U st.rho := rfl
    rw [h1, this, hek, h3]
  have hw0 : HartreeFock.omega0 p.beta st.mu ev
      = ((∑ k, ∑ b, ev k b * HartreeFock.fermi p.beta (ev k b - st.mu))
          - st.mu * (∑ k, ∑ b, HartreeFock.fermi p.beta (ev k b - st.mu))
          - 1 / p.beta * ∑ k, ∑ b, Real.binEntropy (HartreeFock.fermi p.beta (ev k b - st.mu))) / Fintype.card κ := by
    rw [HartreeFock.omega0]
    congr 1
    simp only [Finset.mul_sum, ← Finset.sum_sub_distrib]
    refine Finset.sum_congr rfl fun k _ => Finset.sum_congr rfl fun b _ => ?_
    rw [level_entropy hb.ne']
    ring
  simp only [trb] at hsum
  simp only [trn] at hnum
  rw [hom, hw0]
  push_cast at hsum hnum ⊢
  rw [← hK] at *
  have hsum' : st.ekin = K⁻¹ * (∑ k, ∑ b, (ev k b : ℂ) * (HartreeFock.fermi p.beta (ev k b - st.mu) : ℂ)) + 2 * st.eint := by
    rw [hsum]; ring
  rw [← hnum, hsum']
  field_simp
  ring

end General

/-! ## The bound for the drivers -/

section Drivers

variable {V : Type} [Nonempty s] {fs : List ι} [NeZero fs.length] (hnd : fs.Nodup) {x : Op ι} (hx : Canonical x)
  (hself : dagger x = x) (hq : ∀ m ∈ x.support, IsQuartic fs m) {ts : List (Mono ι × ℂ)} (hts : Enumerates ts x)
  (p : Params fs.length (Lat n) V) (hU : getRpaTensor fs ts = .ok p.U) (hb : 0 < p.beta)
  (hs : Lindhard.EigSpec p.eig) (hsv : Lindhard.EigSpec p.eigv) (hek : ∀ k, (p.ek k).IsHermitian)
  {c : Lat n × ι → Matrix s s ℂ} (hc : Fermions c)
  (hcard : Fintype.card s = 2 ^ (fs.length * Fintype.card (Lat n)))
include hnd hx hself hq hts hU hb hs hsv hek hc hcard

/-- C121 (upper bound): the `Omega` of a self-consistent solution is an upper bound of the exact grand potential per
unit cell of the interacting lattice at the same chemical potential. -/
theorem C121_self_consistent (st : State fs.length (Lat n)) (hr : st.rho.IsHermitian)
    (hd : DensityOf p.U p.beta p.ek st.rho st) (he : EnergyOf p.U p.beta p.ek st) :
    grand n p.beta (hamiltonian fs x c st.mu p.ek) ≤ st.omega.re := by
  have hM := HartreeFock.C47_hermitian fs hnd x hx hself ts hts p.U hU st.rho hr
  have h := C121_bound hnd hx hself hq hts p hU hb hs hsv hek hc hcard st.rho hr st hd
  obtain ⟨-, h1, -⟩ := energy_unique p hb hs hsv st.rho (fun k => (hek k).add hM) st hd he
  have h0 : meanField p.U (0 : Matrix (Fin fs.length) (Fin fs.length) ℂ) = 0 := by
    ext a b; simp [meanField]
  rw [sub_self, h0, zero_mul, Matrix.trace_zero, sub_zero, ← h1] at h
  exact h

/-- C121 (forward iteration): after `solve_iter` the exact grand potential is at most `Omega` minus the average of
the change of the mean field between the last two density matrices. -/
theorem C121_solve_iter [AddCommGroup V] [Module ℝ V] (xtol rtol : ℝ) (hbr : HartreeFock.BrentSpec xtol rtol p.brentq)
    (hv : ∀ v, (p.vec2mat v).IsHermitian) (nrm : V → ℝ) (hn : ∀ v, 0 ≤ nrm v) (s0 st : State fs.length (Lat n)) (Nt : ℝ)
    (M0 : Option (Matrix (Fin fs.length) (Fin fs.length) ℂ)) (mu0 : Option ℝ) (nitermax : ℕ) (h0 : nitermax ≠ 0)
    (mixing tol : ℝ) (hist : List V)
    (h : solveIterState p nrm s0 Nt M0 mu0 nitermax mixing tol = .ok (st, hist)) :
    ∃ (pre : List V) (last : V), hist = pre ++ [last] ∧
      grand n p.beta (hamiltonian fs x c st.mu p.ek)
        ≤ (st.omega - trace (meanField p.U (p.vec2mat last - st.rho) * st.rho)).re := by
  have hM : ∀ v, (meanField p.U (p.vec2mat v)).IsHermitian := fun v =>
    HartreeFock.C47_hermitian fs hnd x hx hself ts hts p.U hU _ (hv v)
  have hh : ∀ v k, (p.ek k + meanField p.U (p.vec2mat v)).IsHermitian := fun v k => (hek k).add (hM v)
  obtain ⟨pre, last, e1, -, hd, he, -, -⟩ := HartreeFock.C86_solve_iter p hb hs hsv xtol rtol hbr hh nrm hn s0 st Nt M0
    mu0 nitermax h0 mixing tol hist h
  refine ⟨pre, last, e1, ?_⟩
  obtain ⟨-, h1, -⟩ := energy_unique p hb hs hsv _ (hh last) st hd he
  rw [h1]
  exact C121_bound hnd hx hself hq hts p hU hb hs hsv hek hc hcard _ (hv last) st hd

end Drivers

/-! ## Every number of modes has a Fock space -/

theorem exists_fermions (J : Type) [Finite J] : ∀ [DecidableEq J], ∃ (s : Type) (_ : Fintype s) (_ : DecidableEq s)
    (c : J → Matrix s s ℂ), Fermions c ∧ Fintype.card s = 2 ^ Nat.card J := by
  classical
  refine Finite.induction_empty_option (P := fun J : Type => ∀ [DecidableEq J], ∃ (s : Type) (_ : Fintype s)
    (_ : DecidableEq s) (c : J → Matrix s s ℂ), Fermions c ∧ Fintype.card s = 2 ^ Nat.card J) ?_ ?_ ?_ J
  · intro α β e h _
    obtain ⟨s, _, _, c, hc, hcard⟩ := h
    refine ⟨s, _, _, fun b => c (e.symm b), ⟨fun i j => hc.anti _ _, fun i j => ?_⟩, ?_⟩
    · rw [hc.mixed]
      by_cases h : i = j
      · rw [if_pos h, if_pos (congrArg _ h)]
      · rw [if_neg h, if_neg (fun h' => h (e.symm.injective h'))]
    · rw [hcard, Nat.card_congr e]
  · intro _
    exact ⟨Unit, inferInstance, inferInstance, fun i => i.elim, ⟨fun i => i.elim, fun i => i.elim⟩, by simp⟩
  · intro α _ h _
    obtain ⟨s, _, _, c, hc, hcard⟩ := h
    let Z : Matrix Bool Bool ℂ := Matrix.of fun i j => if i = j then (if i then -1 else 1) else 0
    let a : Matrix Bool Bool ℂ := Matrix.of fun i j => if i = false ∧ j = true then 1 else 0
    have hZZ : Z * Z = 1 := by
      ext i j
      cases i <;> cases j <;> simp [Z, Matrix.mul_apply]
    have hZh : Zᴴ = Z := by
      ext i j
      cases i <;> cases j <;> simp [Z]
    have haa : a * a = 0 := by
      ext i j
      cases i <;> cases j <;> simp [a, Matrix.mul_apply]
    have haZ : a * Z + Z * a = 0 := by
      ext i j
      cases i <;> cases j <;> simp [a, Z, Matrix.mul_apply]
    have hcar : a * aᴴ + aᴴ * a = 1 := by
      ext i j
      cases i <;> cases j <;> simp [a, Matrix.mul_apply]
    have hahZ : aᴴ * Z + Z * aᴴ = 0 := by
      have := congrArg Matrix.conjTranspose haZ
      rw [Matrix.conjTranspose_add, Matrix.conjTranspose_mul, Matrix.conjTranspose_mul, hZh,
        Matrix.conjTranspose_zero, add_comm] at this
      exact this
    let c' : Option α → Matrix (s × Bool) (s × Bool) ℂ
      | none => Matrix.kronecker 1 a
      | some j => Matrix.kronecker (c j) Z
    have hct : ∀ (A : Matrix s s ℂ) (B : Matrix Bool Bool ℂ),
        (Matrix.kronecker A B)ᴴ = Matrix.kronecker Aᴴ Bᴴ := fun A B => Matrix.conjTranspose_kronecker A B
    have hmul : ∀ (A A' : Matrix s s ℂ) (B B' : Matrix Bool Bool ℂ),
        Matrix.kronecker A B * Matrix.kronecker A' B' = Matrix.kronecker (A * A') (B * B') :=
      fun A A' B B' => (Matrix.mul_kronecker_mul A A' B B').symm
    have haddl : ∀ (A A' : Matrix s s ℂ) (B : Matrix Bool Bool ℂ),
        Matrix.kronecker A B + Matrix.kronecker A' B = Matrix.kronecker (A + A') B :=
      fun A A' B => (Matrix.add_kronecker A A' B).symm
    have haddr : ∀ (A : Matrix s s ℂ) (B B' : Matrix Bool Bool ℂ),
        Matrix.kronecker A B + Matrix.kronecker A B' = Matrix.kronecker A (B + B') :=
      fun A B B' => (Matrix.kronecker_add A B B').symm
    have h0l : ∀ B : Matrix Bool Bool ℂ, Matrix.kronecker (0 : Matrix s s ℂ) B = 0 := fun B => Matrix.zero_kronecker B
    have h0r : ∀ A : Matrix s s ℂ, Matrix.kronecker A (0 : Matrix Bool Bool ℂ) = 0 := fun A => Matrix.kronecker_zero A
    have h1 : Matrix.kronecker (1 : Matrix s s ℂ) (1 : Matrix Bool Bool ℂ) = 1 := Matrix.one_kronecker_one
    refine ⟨s × Bool, inferInstance, inferInstance, c', ⟨?_, ?_⟩, ?_⟩
    · rintro (_ | i) (_ | j)
      · simp only [c', hmul, haa, mul_one, add_zero, h0r]
      · simp only [c', hmul, one_mul, mul_one, haddr, haZ, h0r]
      · simp only [c', hmul, one_mul, mul_one, haddr, add_comm (Z * a), haZ, h0r]
      · simp only [c', hmul, haddl, hc.anti, h0l]
    · rintro (_ | i) (_ | j)
      · simp only [c', hct, Matrix.conjTranspose_one, hmul, mul_one, haddr, hcar, h1, if_true]
      · simp only [c', hct, hmul, one_mul, mul_one, hZh, haddr, haZ, h0r]
        simp
      · simp only [c', hct, Matrix.conjTranspose_one, hmul, one_mul, mul_one, haddr, add_comm (Z * aᴴ), hahZ, h0r]
        simp
      · simp only [c', hct, hmul, hZh, hZZ, haddl, hc.mixed]
        by_cases h : i = j
        · rw [if_pos h, if_pos (congrArg _ h), h1]
        · rw [if_neg h, if_neg (fun h' => h (Option.some.inj h')), h0l]
    · rw [Fintype.card_prod, hcard, Fintype.card_bool, Nat.card_eq_fintype_card, Nat.card_eq_fintype_card,
        Fintype.card_option, pow_succ]

end Verif.Fock
