import Verif.Fock.Lattice
import Mathlib.Analysis.SpecialFunctions.BinaryEntropy

/-!
# C121: the grand potential of the mean field solver

The model is `HartreeFock.updateTotalEnergy` (hf_solver.py:222-231) on a state left by the density step
(hf_solver.py:234-248). The specification is the many-body Hamiltonian on the Fock space of the lattice.
-/

noncomputable section

set_option linter.unusedSectionVars false

namespace Verif.Fock

open NormedSpace Matrix Verif.Fourier Verif.Operators
open Verif.HartreeFock (State Params DensityOf updateTotalEnergy meanField eInt density momentumDensity WickState)

variable {d : ℕ} {n : Fin d → ℕ} [∀ i, NeZero (n i)] {ι : Type} [LinearOrder ι]
variable {s : Type} [Fintype s] [DecidableEq s]

/-- thermal expectation values of the mean field Hamiltonian in a unit cell -/
theorem cell_wick [Nonempty s] {fs : List ι} (hnd : fs.Nodup) {c : Lat n × ι → Matrix s s ℂ} (hc : Fermions c)
    {V : Lat n → Matrix (Fin fs.length) (Fin fs.length) ℂ} (h1 : ∀ k, (V k)ᴴ * V k = 1)
    (h2 : ∀ k, V k * (V k)ᴴ = 1) (beta mu : ℝ) (ev : Lat n → Fin fs.length → ℝ) (R : Lat n) :
    WickState fs (cell c R)
      (thermal beta (diagH (rot (waves V) (modes fs c)) Finset.univ (fun p => ev p.2 p.1 - mu)))
      (density (momentumDensity beta mu ev V)) := by
  have hm := modes_fermions hnd hc
  have w1 := waves_left h1
  have w2 := waves_right h2
  have ecell : ∀ a, cell c R ⟨false, fs.get a⟩ = modes fs c (a, R) := fun a => rfl
  have edag : ∀ a, cell c R ⟨true, fs.get a⟩ = (modes fs c (a, R))ᴴ := fun a => rfl
  refine ⟨thermal_one hm w1 _ _, fun a b => ?_, fun a b e f => ?_⟩
  · rw [ecell, edag, thermal_pair hm w1 w2, Fintype.sum_prod_type_right, density, Finset.sum_div]
    refine Finset.sum_congr rfl fun k _ => ?_
    rw [momentumDensity, Finset.sum_div]
    refine Finset.sum_congr rfl fun i _ => ?_
    have hf : four R k * star (four R k) = (Fintype.card (Lat n) : ℂ)⁻¹ := by
      rw [star_four, four, ← sqrt_card_sq, ker_neg_left]
      have : ker R k ≠ 0 := by
        intro h
        have := ker_mul_neg_left R k
        rw [h, zero_mul] at this
        exact zero_ne_one this
      field_simp
    have : fermi beta (ev k i - mu) = HartreeFock.fermi beta (ev k i - mu) := rfl
    simp only [waves, star_mul', this, div_eq_mul_inv, ← hf, ← Complex.star_def]
    ring
  · simp only [ecell, edag]
    exact thermal_wick hm w1 w2 _ _ _ _ _ _

theorem number_split {fs : List ι} (c : Lat n × ι → Matrix s s ℂ) (mu : ℝ)
    (h : Lat n → Matrix (Fin fs.length) (Fin fs.length) ℂ) (M : Matrix (Fin fs.length) (Fin fs.length) ℂ) :
    oneBody fs c (fun k => h k + M - (mu : ℂ) • 1)
      = oneBody fs c h - (mu : ℂ) • number fs c + oneBody fs c (fun _ => M) := by
  have h1 : (fun k => h k + M - (mu : ℂ) • 1) = fun k => (h k + M) + (-(mu : ℂ)) • (1 : Matrix _ _ ℂ) := by
    funext k
    rw [neg_smul, sub_eq_add_neg]
  rw [h1, oneBody_add, oneBody_add, oneBody_one, neg_smul]
  abel

theorem diag_shift {N : ℕ} {h V : Matrix (Fin N) (Fin N) ℂ} {e : Fin N → ℝ} (mu : ℝ) (h2 : V * Vᴴ = 1)
    (hd : h = V * diagonal (fun i => (e i : ℂ)) * Vᴴ) :
    V * diagonal (fun i => ((e i - mu : ℝ) : ℂ)) * Vᴴ = h - (mu : ℂ) • 1 := by
  have : diagonal (fun i => ((e i - mu : ℝ) : ℂ))
      = diagonal (fun i => (e i : ℂ)) - (mu : ℂ) • (1 : Matrix (Fin N) (Fin N) ℂ) := by
    rw [Matrix.smul_one_eq_diagonal, Matrix.diagonal_sub]
    congr 1
    funext i
    push_cast
    rfl
  rw [this, mul_sub, sub_mul, ← hd, mul_smul_comm, mul_one, smul_mul_assoc, h2]

theorem log_trace [Nonempty s] {fs : List ι} (hnd : fs.Nodup) {c : Lat n × ι → Matrix s s ℂ} (hc : Fermions c)
    (hcard : Fintype.card s = 2 ^ (fs.length * Fintype.card (Lat n)))
    {W : Lat n → Matrix (Fin fs.length) (Fin fs.length) ℂ} (v1 : ∀ k, (W k)ᴴ * W k = 1) (beta mu : ℝ)
    (ev : Lat n → Fin fs.length → ℝ) :
    Real.log (exp (((-beta : ℝ) : ℂ) • diagH (rot (waves W) (modes fs c)) Finset.univ
        (fun q => ev q.2 q.1 - mu))).trace.re
      = ∑ k, ∑ b, Real.log (1 + Real.exp (-beta * (ev k b - mu))) := by
  rw [trace_exp ((modes_fermions hnd hc).rot (waves_left v1)), hcard]
  have h2 : ((2 ^ (fs.length * Fintype.card (Lat n)) : ℕ) : ℂ)
      * ((∏ q : Fin fs.length × Lat n, ((1 + Real.exp (-beta * (ev q.2 q.1 - mu))) / 2) : ℝ) : ℂ)
      = ((∏ q : Fin fs.length × Lat n, (1 + Real.exp (-beta * (ev q.2 q.1 - mu))) : ℝ) : ℂ) := by
    rw [Finset.prod_div_distrib, Finset.prod_const, Finset.card_univ, Fintype.card_prod, Fintype.card_fin]
    push_cast
    field_simp
  rw [h2, Complex.ofReal_re, Real.log_prod (fun q _ => by positivity), Fintype.sum_prod_type_right]

/-- C121 (free particles): `update_non_int_free_energy` returns the exact grand potential per unit cell of
independent electrons in the given bands. -/
theorem C121_free [Nonempty s] {fs : List ι} (hnd : fs.Nodup) {c : Lat n × ι → Matrix s s ℂ} (hc : Fermions c)
    (hcard : Fintype.card s = 2 ^ (fs.length * Fintype.card (Lat n))) (beta mu : ℝ)
    {eig : Lindhard.Eig (Fin fs.length)} (hs : Lindhard.EigSpec eig)
    (h : Lat n → Matrix (Fin fs.length) (Fin fs.length) ℂ) (hh : ∀ k, (h k).IsHermitian) :
    HartreeFock.omega0 beta mu (fun k => (eig (h k)).1)
      = grand n beta (oneBody fs c h - (mu : ℂ) • number fs c) := by
  have e := number_split c mu h (0 : Matrix (Fin fs.length) (Fin fs.length) ℂ)
  have e0 : oneBody (n := n) fs c (fun _ => (0 : Matrix (Fin fs.length) (Fin fs.length) ℂ)) = 0 := by
    simp [oneBody]
  have e1 : (fun k => h k + 0 - (mu : ℂ) • 1) = fun k => (eig (h k)).2
      * diagonal (fun i => (((eig (h k)).1 i - mu : ℝ) : ℂ)) * ((eig (h k)).2)ᴴ := by
    funext k
    rw [diag_shift mu (hs _ (hh k)).2.1 (hs _ (hh k)).2.2, add_zero]
  rw [e0, add_zero, e1, ← diagH_waves fs c (fun k => (eig (h k)).2) (fun k i => (eig (h k)).1 i - mu)] at e
  rw [← e, grand, log_trace hnd hc hcard (fun k => (hs _ (hh k)).1) beta mu (fun k => (eig (h k)).1),
    HartreeFock.omega0, neg_div]

/-- C121 (density matrix): the density matrix of the solver is the one-particle density matrix of every unit cell in
the thermal state of the mean field Hamiltonian on the Fock space, and Wick's theorem holds in that state. -/
theorem C121_wick [Nonempty s] {fs : List ι} (hnd : fs.Nodup) {c : Lat n × ι → Matrix s s ℂ} (hc : Fermions c)
    (U : T4 fs.length) (beta : ℝ) (ek : Lat n → Matrix (Fin fs.length) (Fin fs.length) ℂ)
    (rho0 : Matrix (Fin fs.length) (Fin fs.length) ℂ) (st : State fs.length (Lat n)) (hd : DensityOf U beta ek rho0 st)
    (hh : ∀ k, (ek k + meanField U rho0).IsHermitian) (R : Lat n) :
    WickState fs (cell c R) (thermal beta (oneBody fs c (fun k => ek k + meanField U rho0)
      - (st.mu : ℂ) • number fs c)) st.rho := by
  obtain ⟨eig, hs⟩ := Lindhard.exists_eigSpec (o := Fin fs.length)
  have hek : st.ekMF = fun k => ek k + meanField U rho0 := by
    funext k; rw [hd.bands, hd.mean]
  have hherm : ∀ k, (st.ekMF k).IsHermitian := fun k => by rw [hek]; exact hh k
  have h := cell_wick hnd hc (fun k => (hs _ (hherm k)).1) (fun k => (hs _ (hherm k)).2.1) beta st.mu
    (fun k => (eig (st.ekMF k)).1) R
  have e := number_split c st.mu (fun k => ek k + meanField U rho0) (0 : Matrix (Fin fs.length) (Fin fs.length) ℂ)
  have e0 : oneBody (n := n) fs c (fun _ => (0 : Matrix (Fin fs.length) (Fin fs.length) ℂ)) = 0 := by
    simp [oneBody]
  have e1 : (fun k => ek k + meanField U rho0 + 0 - (st.mu : ℂ) • 1) = fun k => (eig (st.ekMF k)).2
      * diagonal (fun i => (((eig (st.ekMF k)).1 i - st.mu : ℝ) : ℂ)) * ((eig (st.ekMF k)).2)ᴴ := by
    funext k
    rw [diag_shift st.mu (hs _ (hherm k)).2.1 (hs _ (hherm k)).2.2, add_zero, hek]
  rw [e0, add_zero, e1, ← diagH_waves fs c (fun k => (eig (st.ekMF k)).2) (fun k i => (eig (st.ekMF k)).1 i - st.mu)] at e
  have hr : st.rho = density (momentumDensity beta st.mu (fun k => (eig (st.ekMF k)).1) fun k => (eig (st.ekMF k)).2) := by
    rw [HartreeFock.momentumDensity_eq beta st.mu hs st.ekMF hherm, HartreeFock.density_smul, hd.rho]
    congr 1
    exact Finset.sum_congr rfl fun k _ => hd.rhok k
  rw [← e, hr]
  exact h

/-- C121 (expectation values): `expectation_value` with the matrix `op` is the thermal expectation value of the operator
`sum_ab op_ab c^+_a c_b` in every unit cell, in particular of the operator made by `get_quadratic_operator`. -/
theorem C121_expectation [Nonempty s] {fs : List ι} (hnd : fs.Nodup) {c : Lat n × ι → Matrix s s ℂ} (hc : Fermions c)
    (U : T4 fs.length) (beta : ℝ) (ek : Lat n → Matrix (Fin fs.length) (Fin fs.length) ℂ)
    (rho0 : Matrix (Fin fs.length) (Fin fs.length) ℂ) (st : State fs.length (Lat n)) (hd : DensityOf U beta ek rho0 st)
    (hh : ∀ k, (ek k + meanField U rho0).IsHermitian) (R : Lat n) (op : Matrix (Fin fs.length) (Fin fs.length) ℂ) :
    let φ := thermal beta (oneBody fs c (fun k => ek k + meanField U rho0) - (st.mu : ℂ) • number fs c)
    φ (∑ a, ∑ b, op a b • ((c (R, fs.get a))ᴴ * c (R, fs.get b))) = HartreeFock.expectationValue op st.rho ∧
    ∀ H, getQuadraticOperator fs op = .ok H → φ (eval (cell c R) H) = HartreeFock.expectationValue op st.rho := by
  intro φ
  have hw := C121_wick hnd hc U beta ek rho0 st hd hh R
  have h1 : φ (∑ a, ∑ b, op a b • ((c (R, fs.get a))ᴴ * c (R, fs.get b))) = HartreeFock.expectationValue op st.rho := by
    simp only [map_sum, map_smul, HartreeFock.expectationValue, smul_eq_mul]
    refine Finset.sum_congr rfl fun a _ => Finset.sum_congr rfl fun b _ => ?_
    exact congrArg (op a b * ·) (hw.pair b a)
  refine ⟨h1, fun H hH => ?_⟩
  rw [C32_meaning fs op H hH (cell c R) (cell_car hc R)]
  exact h1

section Bound

variable {V : Type} [Nonempty s] {fs : List ι} [NeZero fs.length] (hnd : fs.Nodup) {x : Op ι} (hx : Canonical x)
  (hself : dagger x = x) (hq : ∀ m ∈ x.support, IsQuartic fs m) {ts : List (Mono ι × ℂ)} (hts : Enumerates ts x)
  (p : Params fs.length (Lat n) V) (hU : getRpaTensor fs ts = .ok p.U) (hb : 0 < p.beta)
  (hs : Lindhard.EigSpec p.eig) (hsv : Lindhard.EigSpec p.eigv) (hek : ∀ k, (p.ek k).IsHermitian)
  {c : Lat n × ι → Matrix s s ℂ} (hc : Fermions c)
  (hcard : Fintype.card s = 2 ^ (fs.length * Fintype.card (Lat n)))
include hnd hx hself hq hts hU hb hs hsv hek hc hcard

/-- C121 (upper bound): the exact grand potential per unit cell of the interacting lattice is at most the `Omega`
of the solver minus the average of the change of the mean field in the last step, for every density matrix `rho0`
the mean field was calculated from. -/
theorem C121_bound (rho0 : Matrix (Fin fs.length) (Fin fs.length) ℂ) (hr : rho0.IsHermitian)
    (st : State fs.length (Lat n)) (hd : DensityOf p.U p.beta p.ek rho0 st) :
    grand n p.beta (hamiltonian fs x c st.mu p.ek)
      ≤ ((updateTotalEnergy p st).omega - trace (meanField p.U (rho0 - st.rho) * st.rho)).re := by
  classical
  have hM : (meanField p.U rho0).IsHermitian := HartreeFock.C47_hermitian fs hnd x hx hself ts hts p.U hU rho0 hr
  have hherm : ∀ k, (st.ekMF k).IsHermitian := fun k => by rw [hd.bands, hd.mean]; exact (hek k).add hM
  set ev : Lat n → Fin fs.length → ℝ := fun k => (p.eigv (st.ekMF k)).1 with hev
  set W : Lat n → Matrix (Fin fs.length) (Fin fs.length) ℂ := fun k => (p.eigv (st.ekMF k)).2 with hW
  have v1 : ∀ k, (W k)ᴴ * W k = 1 := fun k => (hsv _ (hherm k)).1
  have v2 : ∀ k, W k * (W k)ᴴ = 1 := fun k => (hsv _ (hherm k)).2.1
  have v3 : ∀ k, st.ekMF k = W k * diagonal (fun i => (ev k i : ℂ)) * (W k)ᴴ := fun k => (hsv _ (hherm k)).2.2
  have hrhok : st.rhok = momentumDensity p.beta st.mu ev W := by
    rw [hev, hW, HartreeFock.momentumDensity_eq p.beta st.mu hsv st.ekMF hherm]
    funext k
    exact hd.rhok k
  have hrho : st.rho = density (momentumDensity p.beta st.mu ev W) := by
    rw [← hrhok, HartreeFock.density_smul]; exact hd.rho
  set H0 := diagH (rot (waves W) (modes fs c)) Finset.univ (fun q => ev q.2 q.1 - st.mu) with hH0
  have eH0 : H0 = oneBody fs c p.ek - (st.mu : ℂ) • number fs c + oneBody fs c (fun _ => meanField p.U rho0) := by
    rw [hH0, diagH_waves fs c W (fun k i => ev k i - st.mu), ← number_split]
    congr 1
    funext k
    rw [diag_shift st.mu (v2 k) (v3 k), hd.bands, hd.mean]
  set B := interaction x c - oneBody fs c (fun _ => meanField p.U rho0) with hB
  have eH : hamiltonian fs x c st.mu p.ek = H0 + B := by
    rw [hamiltonian, eH0, hB]; abel
  have hH0h : H0.IsHermitian := diagH_herm _ _
  have hBh : B.IsHermitian := (interaction_herm hself hc).sub (oneBody_herm fs c fun _ => hM)
  have hsm : ∀ {X : Matrix s s ℂ}, X.IsHermitian → (((-p.beta : ℝ) : ℂ) • X).IsHermitian := by
    intro X hX
    rw [Matrix.IsHermitian, Matrix.conjTranspose_smul, hX.eq, Complex.star_def, Complex.conj_ofReal]
  have hbog := bogoliubov (hsm hH0h) (hsm hBh)
  have eφ : ((exp (((-p.beta : ℝ) : ℂ) • H0) * (((-p.beta : ℝ) : ℂ) • B)).trace
      / (exp (((-p.beta : ℝ) : ℂ) • H0)).trace) = ((-p.beta : ℝ) : ℂ) * thermal p.beta H0 B :=
    map_smul (thermal p.beta H0) ((-p.beta : ℝ) : ℂ) B
  rw [eφ, Complex.re_ofReal_mul, ← smul_add, ← eH] at hbog
  -- averages
  have hw : ∀ R, WickState fs (cell c R) (thermal p.beta H0) st.rho := by
    intro R
    rw [hrho]
    exact cell_wick hnd hc v1 v2 p.beta st.mu ev R
  have hfilter : x.filter (IsQuartic fs) = x := by
    rw [Finsupp.filter_eq_self_iff]
    intro m hm
    exact hq m (Finsupp.mem_support_iff.2 hm)
  have eI : thermal p.beta H0 (interaction x c) = (Fintype.card (Lat n) : ℂ) * (-eInt p.U st.rho) := by
    rw [interaction, map_sum]
    have : ∀ R : Lat n, thermal p.beta H0 (eval (cell c R) x) = -eInt p.U st.rho := by
      intro R
      have h := HartreeFock.C48_interaction fs hnd x hx ts hts p.U hU (cell c R) (cell_car hc R) _ _ (hw R)
      rwa [hfilter] at h
    rw [Finset.sum_congr rfl fun R _ => this R, Finset.sum_const, Finset.card_univ, nsmul_eq_mul]
  have eM : thermal p.beta H0 (oneBody fs c (fun _ => meanField p.U rho0))
      = (Fintype.card (Lat n) : ℂ) * trace (meanField p.U rho0 * st.rho) := by
    rw [oneBody_const, map_sum]
    have : ∀ R : Lat n, thermal p.beta H0 (∑ a, ∑ b, meanField p.U rho0 a b • ((c (R, fs.get a))ᴴ * c (R, fs.get b)))
        = trace (meanField p.U rho0 * st.rho) := by
      intro R
      rw [map_sum, Matrix.trace]
      refine Finset.sum_congr rfl fun a _ => ?_
      rw [map_sum, Matrix.diag_apply, Matrix.mul_apply]
      refine Finset.sum_congr rfl fun b _ => ?_
      rw [map_smul, smul_eq_mul, ← (hw R).pair b a]
      rfl
    rw [Finset.sum_congr rfl fun R _ => this R, Finset.sum_const, Finset.card_univ, nsmul_eq_mul]
  have eZ : Real.log (exp (((-p.beta : ℝ) : ℂ) • H0)).trace.re
      = ∑ k, ∑ b, Real.log (1 + Real.exp (-p.beta * (ev k b - st.mu))) := by
    exact log_trace hnd hc hcard v1 p.beta st.mu ev
  have hK : (0 : ℝ) < Fintype.card (Lat n) := by exact_mod_cast Fintype.card_pos
  have eO : ((updateTotalEnergy p st).omega - trace (meanField p.U (rho0 - st.rho) * st.rho))
      = (HartreeFock.omega0 p.beta st.mu ev : ℂ) - eInt p.U st.rho - trace (meanField p.U rho0 * st.rho) := by
    have h1 : (updateTotalEnergy p st).omega = (HartreeFock.omega0 p.beta st.mu ev : ℂ) + eInt p.U st.rho := rfl
    have h2 := HartreeFock.C47_energy p.U st.rho
    have h3 : meanField p.U (rho0 - st.rho) = meanField p.U rho0 - meanField p.U st.rho := by
      have := HartreeFock.C47_linear p.U 1 (-1) rho0 st.rho
      rw [one_smul, one_smul, neg_smul, neg_smul, one_smul, one_smul, ← sub_eq_add_neg, ← sub_eq_add_neg] at this
      exact this
    rw [h1, h3, sub_mul, Matrix.trace_sub]
    linear_combination 2 * h2
  rw [eO, Complex.sub_re, Complex.sub_re, Complex.ofReal_re, HartreeFock.omega0, ← eZ, grand]
  rw [hB, map_sub, eI, eM, ← mul_sub] at hbog
  have hcast : ((Fintype.card (Lat n) : ℕ) : ℂ) = (((Fintype.card (Lat n) : ℕ) : ℝ) : ℂ) := by push_cast; rfl
  rw [hcast, Complex.re_ofReal_mul, Complex.sub_re, Complex.neg_re] at hbog
  set K : ℝ := (Fintype.card (Lat n) : ℝ)
  set L := Real.log (exp (((-p.beta : ℝ) : ℂ) • hamiltonian fs x c st.mu p.ek)).trace.re
  set L0 := Real.log (exp (((-p.beta : ℝ) : ℂ) • H0)).trace.re
  rw [div_le_iff₀ hK]
  have hb' : 0 < 1 / p.beta := by positivity
  have := mul_le_mul_of_nonneg_left hbog hb'.le
  have hne := hb.ne'
  have e1 : 1 / p.beta * (L0 + -p.beta * (K * (-(eInt p.U st.rho).re - (trace (meanField p.U rho0 * st.rho)).re)))
      = 1 / p.beta * L0 + K * ((eInt p.U st.rho).re + (trace (meanField p.U rho0 * st.rho)).re) := by
    field_simp
    ring
  have e2 : (-1 / p.beta * L0 / K - (eInt p.U st.rho).re - (trace (meanField p.U rho0 * st.rho)).re) * K
      = -(1 / p.beta * L0) - K * ((eInt p.U st.rho).re + (trace (meanField p.U rho0 * st.rho)).re) := by
    field_simp
    ring
  rw [e2]
  rw [e1] at this
  linarith

end Bound

end Verif.Fock
