import Verif.Gw.SolverAtom

/-!
# C89: chemical potential of the GW solver at fixed density
-/

set_option linter.unusedSectionVars false

noncomputable section

namespace Verif.Gw

open Complex Verif.Parallel Verif.Fourier Verif.Bubble Verif.Dyson Verif.Rpa
open Verif.HartreeFock (BrentSpec Brentq fermi)

variable {d : ℕ} {n : Fin d → ℕ} [∀ i, NeZero (n i)] {o : Type} [Fintype o] [DecidableEq o]
variable {p : SolverParams n o}

/-- particle number per cell of the Green's function with a given self energy at a given chemical potential -/
def numberAt (p : SolverParams n o) (S : ℤ → Lat n → o → o → ℂ) (mu : ℝ) : ℝ :=
  (Fintype.card (Lat n) : ℝ)⁻¹ * ∑ k, ∑ a, (p.pieces.dens fun w => if w ∈ p.freqs then
    ((p.val w + (mu : ℂ)) • (1 : Matrix o o ℂ) - p.e k - Matrix.of (S w k))⁻¹ a a else 0).re

theorem totalDensity_eq (hm : GoodMeshes p) (g : G n o) : totalDensity (p.rhoR g)
    = (Fintype.card (Lat n) : ℝ)⁻¹ * ∑ k, ∑ a, (rhoSpec p g k a a).re := by
  unfold totalDensity SolverParams.rhoR
  rw [rhoK_eq hm, Finset.sum_comm, Finset.mul_sum]
  refine Finset.sum_congr rfl fun a _ => ?_
  rw [kToR_apply2, (C06_normalisation _).1, smul_eq_mul, ← Complex.ofReal_natCast, ← Complex.ofReal_inv,
    Complex.re_ofReal_mul, Complex.re_sum]

theorem dispatch_outside (hm : GoodMeshes p) (mu : ℝ) (S : ℤ → Lat n → o → o → ℂ) (w : ℤ) (hw : w ∉ p.freqs)
    (k : Lat n) : p.dispatch mu (some S) w k = 0 := by
  have h := C02_distributedAssign p.ranks hm.ranks _ (prodMesh_nodup hm.freqs hm.lat.1)
    (fun x : ℤ × Lat n => ((p.val x.1 + 0 + (mu : ℂ)) • (1 : Matrix o o ℂ) - p.e x.2 - Matrix.of (S x.1 x.2))⁻¹) (w, k)
  rw [if_neg (fun hx => hw (mem_prodMesh.1 hx).1)] at h
  exact h

theorem target_eq (hm : GoodMeshes p) (S : ℤ → Lat n → o → o → ℂ) (mu : ℝ) :
    p.target (some S) mu = numberAt p S mu - p.nFix := by
  unfold SolverParams.target numberAt
  rw [totalDensity_eq hm]
  congr 2
  refine Finset.sum_congr rfl fun k _ => Finset.sum_congr rfl fun a _ => ?_
  unfold rhoSpec
  congr 2
  funext w
  split_ifs with hw
  · have := congrFun (congrFun (dispatch_some hm mu S w hw k) a) a
    rw [add_zero] at this
    exact this
  · rw [dispatch_outside hm mu S w hw k]; rfl

/-- the last step of a run solved the Dyson equation with the reported self energy -/
theorem solveIter_dyson (f : Flags) (tol : ℝ) (maxiter : ℕ) (h1 : 1 ≤ maxiter) (s s' : SolverState n o)
    (h : p.solveIter f tol maxiter s = .ok s') : ∃ mu, p.dyson mu (some s'.sigma) = .ok (s'.g, s'.mu) := by
  obtain ⟨fuel, rfl⟩ : ∃ fuel, maxiter = fuel + 1 := ⟨maxiter - 1, by omega⟩
  unfold SolverParams.solveIter at h
  cases hl : p.loop f tol (fuel + 1) s.mu s.g none none with
  | error err => rw [hl] at h; cases h
  | ok r =>
    rw [hl] at h
    dsimp only at h
    obtain ⟨m, steps, -, h0, hs, rfl, -, -⟩ := loop_trace f tol fuel _ _ _ _ r hl
    obtain rfl := (Except.ok.inj h).symm
    cases m with
    | zero => exact ⟨_, (sweep_ok _ _ _ _ h0).2.2.2.2.2.2.2⟩
    | succ m => exact ⟨_, (sweep_ok _ _ _ _ (hs m (by omega))).2.2.2.2.2.2.2⟩

/-- C89 (found, partial: nothing is claimed when the search interval has no sign change): a run at fixed density that
returns has a chemical potential within the tolerance of the root finder of one at which the reported self energy gives
exactly the requested particle number. -/
theorem C89_found_partial (hm : GoodMeshes p) (hN : p.nFix ≠ 0) (xtol rtol : ℝ) (hb : BrentSpec xtol rtol p.brentq)
    (f : Flags) (tol : ℝ) (maxiter : ℕ) (h1 : 1 ≤ maxiter) (s s' : SolverState n o)
    (h : p.solveIter f tol maxiter s = .ok s') (hc : Continuous (numberAt p s'.sigma)) :
    ∃ x ∈ Set.uIcc p.bracket.1 p.bracket.2, numberAt p s'.sigma x = p.nFix ∧
      |s'.mu - x| ≤ xtol + rtol * |s'.mu| := by
  obtain ⟨mu, hd⟩ := solveIter_dyson f tol maxiter h1 s s' h
  obtain ⟨-, -, hbr⟩ := dyson_ok _ _ _ _ hd
  have hbr := hbr hN
  have hT : p.target (some s'.sigma) = fun x => numberAt p s'.sigma x - p.nFix := by
    funext x; exact target_eq hm _ x
  have hcT : Continuous (p.target (some s'.sigma)) := by
    rw [hT]; exact hc.sub continuous_const
  have hsign : p.target (some s'.sigma) p.bracket.1 * p.target (some s'.sigma) p.bracket.2 ≤ 0 := by
    by_contra hpos
    rw [hb.refuses _ _ _ (not_le.1 hpos)] at hbr
    cases hbr
  obtain ⟨r, hr, x, hx, h0, hle⟩ := hb.finds _ _ _ hcT hsign
  rw [hbr] at hr
  obtain rfl := Except.ok.inj hr
  refine ⟨x, hx, ?_, hle⟩
  rw [hT] at h0
  exact sub_eq_zero.1 h0

/-! ## Concrete cases -/

/-- switches of a Hartree calculation -/
def hartreeOnly : Flags := { hartree := true, fock := false, gw := false }

section
variable (beta eps u nFix : ℝ) (bracket : ℝ × ℝ) (brentq : Brentq)

/-- Hartree shift of the orbital -/
def atomShift (g : G (fun _ : Fin 1 => 1) Unit) : ℝ := u * fermi beta (-((g 0 0 () ())⁻¹).re)

/-- one pass of a Hartree calculation for the orbital at fixed density -/
theorem atom_sweep (hN : nFix ≠ 0) (mu : ℝ) (g : G (fun _ : Fin 1 => 1) Unit) :
    ∃ σ : ℤ → L1 → Unit → Unit → ℂ, σ 0 0 () () = (atomShift beta u g : ℝ) ∧
      (atom beta eps u nFix bracket brentq).target (some σ)
        = (fun x => fermi beta (eps + atomShift beta u g - x) - nFix) ∧
      (∀ err, brentq (fun x => fermi beta (eps + atomShift beta u g - x) - nFix) bracket.1 bracket.2 = .error err →
        (atom beta eps u nFix bracket brentq).sweep hartreeOnly mu g = .error err) ∧
      ∀ mu', brentq (fun x => fermi beta (eps + atomShift beta u g - x) - nFix) bracket.1 bracket.2 = .ok mu' →
        ∃ t, (atom beta eps u nFix bracket brentq).sweep hartreeOnly mu g = .ok t ∧ t.mu = mu' ∧ t.sigma = σ := by
  set p := atom beta eps u nFix bracket brentq with hp
  let σ : ℤ → L1 → Unit → Unit → ℂ := fun w k => (fun (_ : ℤ) (_ : L1) => (0 : Unit → Unit → ℂ)) w k + p.sigmaHartree g k
  have hσ : σ 0 0 () () = (atomShift beta u g : ℝ) := by
    change (0 : Unit → Unit → ℂ) () () + p.sigmaHartree g 0 () () = _
    rw [sigmaHartree_eq (atom_good _ _ _ _ _ _), atom_hartree, atomShift]
    push_cast
    simp
  have ht : p.target (some σ) = fun x => fermi beta (eps + atomShift beta u g - x) - nFix := by
    funext x
    exact atom_target beta eps u nFix bracket brentq σ _ hσ x
  have hd : ∀ r, brentq (fun x => fermi beta (eps + atomShift beta u g - x) - nFix) bracket.1 bracket.2 = r →
      p.brentq (p.target (some σ)) p.bracket.1 p.bracket.2 = r := fun r h => by rw [ht]; exact h
  have hN' : ¬ p.nFix = 0 := hN
  refine ⟨σ, hσ, ht, fun err h => ?_, fun mu' h => ?_⟩
  · have hx : p.dyson mu (some σ) = .error err := by
      unfold SolverParams.dyson
      rw [if_neg hN', hd _ h]
    unfold SolverParams.sweep
    dsimp only
    split
    · rename_i err' heq
      exact congrArg Except.error (Except.error.inj (heq.symm.trans hx))
    · rename_i heq
      cases heq.symm.trans hx
  · have hx : p.dyson mu (some σ) = .ok (p.dispatch mu' (some σ), mu') := by
      unfold SolverParams.dyson
      rw [if_neg hN', hd _ h]
    unfold SolverParams.sweep
    dsimp only
    split
    · rename_i heq
      cases heq.symm.trans hx
    · rename_i g'' mu'' heq
      have := Except.ok.inj (heq.symm.trans hx)
      exact ⟨_, rfl, (Prod.mk.inj this).2, rfl⟩

/-- the constructor for the orbital at fixed density -/
theorem atom_init (hN : nFix ≠ 0) (mu : ℝ)
    (h : brentq (fun x => fermi beta (eps - x) - nFix) bracket.1 bracket.2 = .ok mu) :
    ∃ s0, (atom beta eps u nFix bracket brentq).init none none = .ok s0 ∧ s0.mu = mu := by
  set p := atom beta eps u nFix bracket brentq with hp
  have ht : p.target none = fun x => fermi beta (eps - x) - nFix := by
    funext x
    exact atom_target0 beta eps u nFix bracket brentq x
  have : p.dyson 0 none = .ok (p.dispatch mu none, mu) := by
    unfold SolverParams.dyson
    rw [if_neg (show ¬ p.nFix = 0 from hN), ht]
    have : p.brentq (fun x => fermi beta (eps - x) - nFix) p.bracket.1 p.bracket.2 = .ok mu := h
    rw [this]
  unfold SolverParams.init
  dsimp only [Option.getD]
  rw [this]
  exact ⟨_, rfl, rfl⟩

end

theorem fermi_zero (beta : ℝ) : fermi beta 0 = 1 / 2 := by
  unfold fermi; rw [mul_zero, Real.exp_zero]; norm_num

theorem fermi_le_one (beta e : ℝ) : fermi beta e ≤ 1 := by
  unfold fermi
  rw [div_le_one (by positivity)]
  linarith [Real.exp_pos (beta * e)]

/-- hypotheses of `C89_found_partial`: half filled orbital with `U = 1`, Hartree -/
example : ∃ (brentq : Brentq) (s0 s' : SolverState (fun _ : Fin 1 => 1) Unit), BrentSpec (2 / 10 ^ 12) (1 / 10 ^ 5) brentq ∧
    GoodMeshes (atom 1 0 1 (1 / 2) (-5, 5) brentq) ∧ (atom 1 0 1 (1 / 2) (-5, 5) brentq).nFix ≠ 0 ∧
    (atom 1 0 1 (1 / 2) (-5, 5) brentq).init none none = .ok s0 ∧
    (atom 1 0 1 (1 / 2) (-5, 5) brentq).solveIter hartreeOnly (1 / 10 ^ 7) 100 s0 = .ok s' ∧
    Continuous (numberAt (atom 1 0 1 (1 / 2) (-5, 5) brentq) s'.sigma) := by
  obtain ⟨brentq, hb⟩ := HartreeFock.exists_brent (2 / 10 ^ 12) (1 / 10 ^ 5) (by norm_num) (by norm_num)
  have hN : (1 / 2 : ℝ) ≠ 0 := by norm_num
  have hgood := atom_good 1 0 1 (1 / 2) (-5, 5) brentq
  have hanti := HartreeFock.fermi_strictAnti 1 one_pos
  have hcont : ∀ e : ℝ, Continuous fun x => fermi 1 (e - x) - 1 / 2 := fun e =>
    ((HartreeFock.fermi_continuous 1).comp (continuous_const.sub continuous_id)).sub continuous_const
  have hfind : ∀ e : ℝ, 0 ≤ e → e ≤ 1 → ∃ r, brentq (fun x => fermi 1 (e - x) - 1 / 2) (-5) 5 = .ok r := by
    intro e h0 h1
    have h2 : fermi 1 (e - -5) < fermi 1 0 := hanti (by linarith)
    have h3 : fermi 1 0 < fermi 1 (e - 5) := hanti (by linarith)
    rw [fermi_zero] at h2 h3
    obtain ⟨r, hr, -⟩ := hb.finds _ (-5) 5 (hcont e)
      (mul_nonpos_of_nonpos_of_nonneg (by linarith : fermi 1 (e - -5) - 1 / 2 ≤ 0) (by linarith))
    exact ⟨r, hr⟩
  have hsh : ∀ g, 0 ≤ atomShift 1 1 g ∧ atomShift 1 1 g ≤ 1 := fun g => by
    unfold atomShift
    rw [one_mul]
    exact ⟨(fermi_pos _ _).le, fermi_le_one _ _⟩
  have hsweep : ∀ mu g, ∃ t, (atom 1 0 1 (1 / 2) (-5, 5) brentq).sweep hartreeOnly mu g = .ok t := by
    intro mu g
    obtain ⟨σ, -, -, -, h⟩ := atom_sweep 1 0 1 (1 / 2) (-5, 5) brentq hN mu g
    obtain ⟨r, hr⟩ := hfind (0 + atomShift 1 1 g) (by linarith [(hsh g).1]) (by linarith [(hsh g).2])
    obtain ⟨t, ht, -⟩ := h r hr
    exact ⟨t, ht⟩
  obtain ⟨r, hr⟩ := hfind 0 le_rfl zero_le_one
  obtain ⟨s0, h0, -⟩ := atom_init 1 0 1 (1 / 2) (-5, 5) brentq hN r hr
  obtain ⟨s', h'⟩ := solveIter_total_of hartreeOnly hsweep (1 / 10 ^ 7) 100 (by norm_num) s0
  refine ⟨brentq, s0, s', hb, hgood, hN, h0, h', ?_⟩
  obtain ⟨m, steps, -, ha, hs, -, -, hsig, -⟩ := C87_run hgood _ _ 100 (by norm_num) s0 s' h'
  have hreal : ∃ e : ℝ, s'.sigma 0 0 () () = (e : ℂ) := by
    rw [hsig]
    cases m with
    | zero =>
      rw [ha.sigma, atom_hartree]
      exact ⟨atomShift 1 1 s0.g, by simp [hartreeOnly, atomShift]⟩
    | succ m =>
      rw [(hs m (by omega)).sigma, atom_hartree]
      exact ⟨atomShift 1 1 (steps m).g, by simp [hartreeOnly, atomShift]⟩
  obtain ⟨e, he⟩ := hreal
  have : numberAt (atom 1 0 1 (1 / 2) (-5, 5) brentq) s'.sigma = fun x => fermi 1 (0 + e - x) := by
    funext x
    have h1 := target_eq hgood s'.sigma x
    rw [atom_target 1 0 1 (1 / 2) (-5, 5) brentq s'.sigma e he] at h1
    have h2 : (atom 1 0 1 (1 / 2) (-5, 5) brentq).nFix = 1 / 2 := rfl
    rw [h2] at h1
    linarith
  rw [this]
  exact (HartreeFock.fermi_continuous 1).comp (continuous_const.sub continuous_id)

/-- C89, the default bracket: the search runs between two real parts of matrix elements of the dispersion, and
the real part of every matrix element (so in particular every on-site level) lies between them. -/
theorem C89_default_bracket {d : ℕ} {n : Fin d → ℕ} [∀ i, NeZero (n i)] {o : Type} [Fintype o] [Nonempty o]
    (e : Lat n → Matrix o o ℂ) :
    (∀ k a b, (defaultBracket e).1 ≤ (e k a b).re ∧ (e k a b).re ≤ (defaultBracket e).2) ∧
    (∃ k a b, (e k a b).re = (defaultBracket e).1) ∧ (∃ k a b, (e k a b).re = (defaultBracket e).2) := by
  let f : Lat n × o × o → ℝ := fun x => (e x.1 x.2.1 x.2.2).re
  have hfin : (Set.range f).Finite := Set.finite_range f
  refine ⟨fun k a b => ⟨ciInf_le hfin.bddBelow (k, a, b), le_ciSup hfin.bddAbove (k, a, b)⟩, ?_, ?_⟩
  · obtain ⟨x, hx⟩ := (Set.range_nonempty f).csInf_mem hfin
    exact ⟨x.1, x.2.1, x.2.2, hx⟩
  · obtain ⟨x, hx⟩ := (Set.range_nonempty f).csSup_mem hfin
    exact ⟨x.1, x.2.1, x.2.2, hx⟩

/-- C89 (bracket) is violated: with the default search interval, which is that of the bare dispersion, a Hartree
calculation for a half filled orbital with `U = 1` fails in its first iteration, for every root finder, although at the
first self energy `σ` there is a chemical potential with exactly the requested number of particles. -/
theorem C89_bracket_violated (xtol rtol : ℝ) (brentq : Brentq) (hb : BrentSpec xtol rtol brentq) :
    ∃ p : SolverParams (fun _ : Fin 1 => 1) Unit, GoodMeshes p ∧ p.brentq = brentq ∧ p.bracket = defaultBracket p.e ∧
      p.nFix = 1 / 2 ∧ ∃ s0, p.init none none = .ok s0 ∧
      (∀ tol maxiter, 1 ≤ maxiter → p.solveIter hartreeOnly tol maxiter s0 = .error "ValueError") ∧
      ∃ σ : ℤ → L1 → Unit → Unit → ℂ, (∀ w k a b, σ w k a b = hartreeSpec p s0.g a b) ∧ ∃ mu, numberAt p σ mu = 1 / 2 := by
  have hN : (1 / 2 : ℝ) ≠ 0 := by norm_num
  set p := atom 1 0 1 (1 / 2) (0, 0) brentq with hp
  have hgood : GoodMeshes p := atom_good 1 0 1 (1 / 2) (0, 0) brentq
  obtain ⟨r, hr, -⟩ := hb.finds (fun x => fermi 1 (0 - x) - 1 / 2) 0 0
    (((HartreeFock.fermi_continuous 1).comp (continuous_const.sub continuous_id)).sub continuous_const)
    (by simp only [sub_zero]; rw [fermi_zero]; norm_num)
  obtain ⟨s0, h0, -⟩ := atom_init 1 0 1 (1 / 2) (0, 0) brentq hN r hr
  refine ⟨p, hgood, rfl, ?_, rfl, s0, h0, fun tol maxiter h1 => ?_,
    fun _ _ a b => hartreeSpec p s0.g a b, fun _ _ _ _ => rfl, atomShift 1 1 s0.g, ?_⟩
  · have : ∀ x : L1 × Unit × Unit, (p.e x.1 x.2.1 x.2.2).re = 0 := fun x => by simp [hp, atom]
    unfold defaultBracket
    simp only [this, ciInf_const, ciSup_const]
    rfl
  · obtain ⟨fuel, rfl⟩ : ∃ fuel, maxiter = fuel + 1 := ⟨maxiter - 1, by omega⟩
    obtain ⟨σ, -, -, herr, -⟩ := atom_sweep 1 0 1 (1 / 2) (0, 0) brentq hN s0.mu s0.g
    have hlt : fermi 1 (0 + atomShift 1 1 s0.g - 0) < fermi 1 0 := by
      apply HartreeFock.fermi_strictAnti 1 one_pos
      have := fermi_pos 1 (-((s0.g 0 0 () ())⁻¹).re)
      unfold atomShift
      linarith
    rw [fermi_zero] at hlt
    have hsw := herr _ (hb.refuses _ 0 0 (mul_pos_of_neg_of_neg (by linarith) (by linarith)))
    have hsw : p.sweep hartreeOnly s0.mu s0.g = .error "ValueError" := hsw
    unfold SolverParams.solveIter
    rw [SolverParams.loop, hsw]
  · have hs : (fun (_ : ℤ) (_ : L1) a b => hartreeSpec p s0.g a b) 0 0 () () = ((atomShift 1 1 s0.g : ℝ) : ℂ) := by
      dsimp only
      rw [hp, atom_hartree, atomShift]
      push_cast
      rfl
    have h1 := target_eq hgood (fun _ _ a b => hartreeSpec p s0.g a b) (atomShift 1 1 s0.g)
    rw [hp, atom_target 1 0 1 (1 / 2) (0, 0) brentq _ _ hs, zero_add, sub_self, fermi_zero] at h1
    have h2 : (atom 1 0 1 (1 / 2) (0, 0) brentq).nFix = 1 / 2 := rfl
    rw [h2] at h1
    linarith

/-- C89 (tolerance) is violated: `N_tol` is handed over as the relative tolerance of the chemical potential, so a root
finder within its contract can leave the particle number off by more than a quarter at the default `N_tol = 10⁻⁵`. -/
theorem C89_tolerance_violated : ∃ (brentq : Brentq), BrentSpec (2 / 10 ^ 12) (1 / 10 ^ 5) brentq ∧
    ∃ p : SolverParams (fun _ : Fin 1 => 1) Unit, GoodMeshes p ∧ p.brentq = brentq ∧ p.nFix = 1 / 2 ∧
      ∃ s0, p.init none none = .ok s0 ∧ ∀ tol maxiter, 1 ≤ maxiter →
        ∃ s' N, p.solveIter hartreeOnly tol maxiter s0 = .ok s' ∧ s'.N = some N ∧ 1 / 4 < |N - p.nFix| := by
  classical
  have hN : (1 / 2 : ℝ) ≠ 0 := by norm_num
  obtain ⟨br, hbr⟩ := HartreeFock.exists_brent (2 / 10 ^ 12) (1 / 10 ^ 5) (by norm_num) (by norm_num)
  let f0 : ℝ → ℝ := fun x => fermi (10 ^ 6) (1 - x) - 1 / 2
  let r0 : ℝ := 1 + 1 / 10 ^ 5
  let brentq : Brentq := fun f a b => if f = f0 ∧ a = 0 ∧ b = 2 then .ok r0 else br f a b
  have hanti := HartreeFock.fermi_strictAnti (10 ^ 6) (by norm_num)
  have hl : f0 0 < 0 := by
    have : fermi (10 ^ 6) (1 - 0) < fermi (10 ^ 6) 0 := hanti (by norm_num)
    rw [fermi_zero] at this
    change fermi (10 ^ 6) (1 - 0) - 1 / 2 < 0
    linarith
  have hr : 0 < f0 2 := by
    have : fermi (10 ^ 6) 0 < fermi (10 ^ 6) (1 - 2) := hanti (by norm_num)
    rw [fermi_zero] at this
    change 0 < fermi (10 ^ 6) (1 - 2) - 1 / 2
    linarith
  have hspec : BrentSpec (2 / 10 ^ 12) (1 / 10 ^ 5) brentq := by
    refine ⟨fun f a b h => ?_, fun f a b hc h => ?_⟩
    · have : ¬ (f = f0 ∧ a = 0 ∧ b = 2) := by
        rintro ⟨rfl, rfl, rfl⟩
        exact absurd h (not_lt.2 (mul_neg_of_neg_of_pos hl hr).le)
      simp only [brentq, if_neg this]
      exact hbr.refuses f a b h
    · by_cases hf : f = f0 ∧ a = 0 ∧ b = 2
      · simp only [brentq, if_pos hf]
        obtain ⟨rfl, rfl, rfl⟩ := hf
        refine ⟨r0, rfl, 1, Set.mem_uIcc.2 (Or.inl ⟨zero_le_one, one_le_two⟩), ?_, ?_⟩
        · change fermi (10 ^ 6) (1 - 1) - 1 / 2 = 0
          rw [sub_self, fermi_zero, sub_self]
        · simp only [r0]
          rw [abs_of_pos (by norm_num), abs_of_pos (by norm_num)]
          norm_num
      · simp only [brentq, if_neg hf]
        exact hbr.finds f a b hc h
  have hb0 : brentq f0 0 2 = .ok r0 := by simp [brentq]
  set p := atom (10 ^ 6) 1 0 (1 / 2) (0, 2) brentq with hp
  have hgood : GoodMeshes p := atom_good _ _ _ _ _ _
  obtain ⟨s0, h0, -⟩ := atom_init (10 ^ 6) 1 0 (1 / 2) (0, 2) brentq hN r0 hb0
  have hshift : ∀ g, atomShift (10 ^ 6) 0 g = 0 := fun g => by unfold atomShift; rw [zero_mul]
  have hfun : ∀ g, (fun x => fermi (10 ^ 6) (1 + atomShift (10 ^ 6) 0 g - x) - 1 / 2) = f0 := fun g => by
    rw [hshift]; simp only [add_zero, f0]
  have hsweep : ∀ mu g, ∃ t, p.sweep hartreeOnly mu g = .ok t := by
    intro mu g
    obtain ⟨σ, -, -, -, h⟩ := atom_sweep (10 ^ 6) 1 0 (1 / 2) (0, 2) brentq hN mu g
    rw [hfun g] at h
    obtain ⟨t, ht, -⟩ := h r0 hb0
    exact ⟨t, ht⟩
  refine ⟨brentq, hspec, p, hgood, rfl, rfl, s0, h0, fun tol maxiter h1 => ?_⟩
  obtain ⟨s', h'⟩ := solveIter_total_of hartreeOnly hsweep tol maxiter h1 s0
  obtain ⟨mu, hd⟩ := solveIter_dyson hartreeOnly tol maxiter h1 s0 s' h'
  obtain ⟨hg, -, hbr'⟩ := dyson_ok _ _ _ _ hd
  have hbr' := hbr' hN
  have hsig : s'.sigma 0 0 () () = ((0 : ℝ) : ℂ) := by
    obtain ⟨m, steps, -, ha, hs, -, -, hsig, -⟩ := C87_run hgood _ _ maxiter h1 s0 s' h'
    rw [hsig]
    cases m with
    | zero =>
      rw [ha.sigma, hp, atom_hartree]
      simp [hartreeOnly]
    | succ m =>
      rw [(hs m (by omega)).sigma, hp, atom_hartree]
      simp [hartreeOnly]
  have ht : p.target (some s'.sigma) = f0 := by
    funext x
    have := atom_target (10 ^ 6) 1 0 (1 / 2) (0, 2) brentq s'.sigma 0 hsig x
    rw [add_zero] at this
    exact this
  rw [ht] at hbr'
  have hmu : s'.mu = r0 := (Except.ok.inj (hb0.symm.trans hbr')).symm
  obtain ⟨-, -, hNum⟩ := C87_density hgood _ _ _ _ _ h'
  rw [← totalDensity_eq hgood] at hNum
  refine ⟨s', _, h', hNum, ?_⟩
  have hval : totalDensity (p.rhoR s'.g) - 1 / 2 = fermi (10 ^ 6) (1 - r0) - 1 / 2 := by
    have := congrFun ht s'.mu
    unfold SolverParams.target at this
    rw [← hg, hmu] at this
    exact this
  have hp2 : p.nFix = 1 / 2 := rfl
  rw [hp2, hval]
  have hexp : Real.exp (10 ^ 6 * (1 - r0)) ≤ 1 / 4 := by
    have e1 : (10 : ℝ) ^ 6 * (1 - r0) = -10 := by simp only [r0]; norm_num
    rw [e1, Real.exp_neg, ← one_div]
    apply one_div_le_one_div_of_le (by norm_num)
    linarith [Real.add_one_le_exp (10 : ℝ)]
  have : 3 / 4 < fermi (10 ^ 6) (1 - r0) := by
    unfold fermi
    rw [lt_div_iff₀ (by positivity)]
    linarith
  rw [abs_of_pos (by linarith)]
  linarith

end Verif.Gw
