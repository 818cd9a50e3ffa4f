import Verif.Units.Gw
import Verif.Gw.SolverAtom

/-!
# C126: where the GW solver depends on the unit and the zero of energy
-/

set_option linter.unusedSectionVars false

noncomputable section

namespace Verif.Units

open Verif.Parallel Verif.Fourier Verif.Bubble Verif.Gw Verif.Rpa Verif.Dyson

variable {d : ℕ} {n : Fin d → ℕ} [∀ i, NeZero (n i)] {o : Type} [Fintype o] [DecidableEq o]

/-- every calculation written with another unit and zero of energy -/
def unitGw (l c : ℝ) (p : SolverParams n o) : SolverParams n o where
  ranks := p.ranks
  lat := p.lat
  freqs := p.freqs
  bfreqs := p.bfreqs
  nw := p.nw
  beta := p.beta / l
  L := p.L
  val := fun w => (l : ℂ) * p.val w
  pieces :=
    { gToTau := fun f => p.pieces.gToTau ((l : ℂ) • f)
      wToTau := fun f => (l : ℂ) ^ 2 • p.pieces.wToTau ((l : ℂ)⁻¹ • f)
      toFreq := fun f => (l : ℂ) • p.pieces.toFreq (((l : ℂ) ^ 2)⁻¹ • f)
      tail0 := fun f => (l : ℂ) * p.pieces.tail0 ((l : ℂ)⁻¹ • f)
      dens := fun f => p.pieces.dens ((l : ℂ) • f)
      ntau := p.pieces.ntau }
  boseFreq := fun f => (l : ℂ)⁻¹ • p.boseFreq f
  e := affine (l : ℂ) (c : ℂ) p.e
  V := (l : ℂ) • p.V
  nFix := p.nFix
  bracket := (l * p.bracket.1 + c, l * p.bracket.2 + c)
  brentq := fun f a b => (p.brentq (fun x => f (l * x + c)) ((a - c) / l) ((b - c) / l)).map fun x => l * x + c

/-- the hypothesis of the theorems holds for every calculation -/
theorem unitGw_same {l : ℝ} (hl : 0 < l) (c : ℝ) (p : SolverParams n o) : SameGw l c p (unitGw l c p) where
  pos := hl
  ranks := rfl
  lat := rfl
  freqs := rfl
  bfreqs := rfl
  nw := rfl
  L := rfl
  beta := rfl
  val := rfl
  gToTau f := by
    change p.pieces.gToTau ((l : ℂ) • (l : ℂ)⁻¹ • f) = _
    rw [smul_inv_smul₀ (Complex.ofReal_ne_zero.2 hl.ne')]
  wToTau f := by
    change _ • p.pieces.wToTau ((l : ℂ)⁻¹ • (l : ℂ) • f) = _
    rw [inv_smul_smul₀ (Complex.ofReal_ne_zero.2 hl.ne')]
  toFreq f := by
    change _ • p.pieces.toFreq (((l : ℂ) ^ 2)⁻¹ • (l : ℂ) ^ 2 • f) = _
    rw [inv_smul_smul₀ (pow_ne_zero 2 (Complex.ofReal_ne_zero.2 hl.ne'))]
  dens f := by
    change p.pieces.dens ((l : ℂ) • (l : ℂ)⁻¹ • f) = _
    rw [smul_inv_smul₀ (Complex.ofReal_ne_zero.2 hl.ne')]
  boseFreq f := rfl
  e := rfl
  V := rfl
  nFix := rfl
  bracket := rfl
  brentq f a b := by
    have h1 : ∀ x : ℝ, (l * x + c - c) / l = x := fun x => by rw [add_sub_cancel_right, mul_div_cancel_left₀ _ hl.ne']
    change Except.map _ (p.brentq (fun x => f ((l * x + c - c) / l)) ((l * a + c - c) / l) ((l * b + c - c) / l)) = _
    simp only [h1]

/-! ## The tolerance -/

/-- Hartree only -/
def onlyHartree : Flags := { hartree := true, fock := false, gw := false }

/-- atom at its own chemical potential, `U = 1`, `β = 1` -/
def atom1 : SolverParams (fun _ : Fin 1 => 1) Unit := atom 1 0 1 0 (0, 0) noBrent

theorem atom1_step {mu : ℝ} (hmu : mu = 0) (g : G (fun _ : Fin 1 => 1) Unit) (t : Sweep (fun _ : Fin 1 => 1) Unit)
    (h : atom1.sweep onlyHartree mu g = .ok t) : t.mu = 0 ∧
      t.g 0 0 () () = (matsubara .fermion 1 0 - ((HartreeFock.fermi 1 (-((g 0 0 () ())⁻¹).re) : ℝ) : ℂ))⁻¹ := by
  subst hmu
  have hs := sweep_spec (atom_good 1 0 1 0 (0, 0) noBrent) onlyHartree 0 g t h
  have hd := (sweep_ok onlyHartree 0 g t h).2.2.2.2.2.2.2
  have hd' : Except.ok (atom1.dispatch 0 (some t.sigma), (0 : ℝ)) = Except.ok (ε := String) (t.g, t.mu) := by
    rw [← hd]
    unfold SolverParams.dyson
    rw [if_pos (show atom1.nFix = 0 from rfl)]
  have h1 := Except.ok.inj hd'
  have h2 : t.sigma 0 0 () () = ((HartreeFock.fermi 1 (-((g 0 0 () ())⁻¹).re) : ℝ) : ℂ) := by
    rw [hs.sigma, atom_hartree]
    simp [onlyHartree]
  refine ⟨(congrArg Prod.snd h1).symm, ?_⟩
  have h3 : atom1.dispatch 0 (some t.sigma) = t.g := congrArg Prod.fst h1
  rw [← h3]
  refine (atom_g 1 0 1 0 (0, 0) noBrent 0 t.sigma 0 () ()).trans ?_
  rw [h2]
  simp

/-- the shift of the level seen in a Green's function -/
def level (g : G (fun _ : Fin 1 => 1) Unit) : ℝ := -((g 0 0 () ())⁻¹).re

theorem level_step {mu : ℝ} (hmu : mu = 0) (g : G (fun _ : Fin 1 => 1) Unit) (t : Sweep (fun _ : Fin 1 => 1) Unit)
    (h : atom1.sweep onlyHartree mu g = .ok t) : level t.g = HartreeFock.fermi 1 (level g) := by
  have h1 := (atom1_step hmu g t h).2
  rw [level, h1, inv_inv, Complex.sub_re, matsubara_re, zero_sub, neg_neg, Complex.ofReal_re]
  rfl

theorem atom1_run (s0 : SolverState (fun _ : Fin 1 => 1) Unit) (hmu : s0.mu = 0) (hg : level s0.g = 0) :
    ∃ t1 t2 : ℝ, 0 < t1 ∧ 0 < t2 ∧ ∃ s1 s2, atom1.solveIter onlyHartree t1 3 s0 = .ok s1 ∧
      atom1.solveIter onlyHartree t2 3 s0 = .ok s2 ∧ s1.N ≠ s2.N := by
  have hinj := (HartreeFock.fermi_strictAnti 1 one_pos).injective
  obtain ⟨u1, hu1⟩ : ∃ t, atom1.sweep onlyHartree s0.mu s0.g = .ok t := by
    unfold SolverParams.sweep SolverParams.dyson
    simp only [show atom1.nFix = 0 from rfl, if_true]
    exact ⟨_, rfl⟩
  obtain ⟨u2, hu2⟩ : ∃ t, atom1.sweep onlyHartree u1.mu u1.g = .ok t := by
    unfold SolverParams.sweep SolverParams.dyson
    simp only [show atom1.nFix = 0 from rfl, if_true]
    exact ⟨_, rfl⟩
  obtain ⟨u3, hu3⟩ : ∃ t, atom1.sweep onlyHartree u2.mu u2.g = .ok t := by
    unfold SolverParams.sweep SolverParams.dyson
    simp only [show atom1.nFix = 0 from rfl, if_true]
    exact ⟨_, rfl⟩
  have m1 := (atom1_step hmu _ _ hu1).1
  have m2 := (atom1_step m1 _ _ hu2).1
  have l1 := level_step hmu _ _ hu1
  have l2 := level_step m1 _ _ hu2
  have l3 := level_step m2 _ _ hu3
  have d0 : level u1.g ≠ level s0.g := by
    rw [l1, hg]; exact (fermi_pos _ _).ne'
  have d1 : level u2.g ≠ level u1.g := by
    rw [l2, l1]; exact fun h => d0 (l1 ▸ hinj h)
  have d2 : level u3.g ≠ level u2.g := by
    rw [l3]; conv_rhs => rw [l2]
    exact fun h => d1 (hinj h)
  set D := ‖u2.g 0 0 () () - u1.g 0 0 () ()‖ with hD
  have hDpos : 0 < D := by
    refine norm_pos_iff.2 (sub_ne_zero.2 fun h => d1 ?_)
    unfold level
    rw [h]
  have hclose : ∀ t : ℝ, atom1.close t (some u1.g) u2.g ↔ D < t := by
    intro t
    constructor
    · intro h
      exact h 0 (List.mem_singleton.2 rfl) 0 (List.mem_singleton.2 rfl) () ()
    · intro h w hw k hk a b
      obtain rfl := List.mem_singleton.1 hw
      obtain rfl := List.mem_singleton.1 hk
      exact h
  have hN : ∀ g, totalDensity (atom1.rhoR g) = HartreeFock.fermi 1 (level g) := fun g => atom_total 1 0 1 0 (0, 0) noBrent g
  have r1 : ∃ s1, atom1.solveIter onlyHartree (D + 1) 3 s0 = .ok s1 ∧ s1.N = some (totalDensity (atom1.rhoR u2.g)) := by
    have : atom1.loop onlyHartree (D + 1) 3 s0.mu s0.g none none = .ok (some u2) := by
      rw [SolverParams.loop, hu1]
      dsimp only
      rw [if_neg (show ¬ atom1.close (D + 1) none u1.g from id), SolverParams.loop, hu2]
      dsimp only
      rw [if_pos ((hclose _).2 (by linarith))]
    unfold SolverParams.solveIter
    rw [this]
    exact ⟨_, rfl, rfl⟩
  have r2 : ∃ s2, atom1.solveIter onlyHartree D 3 s0 = .ok s2 ∧ s2.N = some (totalDensity (atom1.rhoR u3.g)) := by
    have : atom1.loop onlyHartree D 3 s0.mu s0.g none none = .ok (some u3) := by
      rw [SolverParams.loop, hu1]
      dsimp only
      rw [if_neg (show ¬ atom1.close D none u1.g from id), SolverParams.loop, hu2]
      dsimp only
      rw [if_neg (fun h => lt_irrefl _ ((hclose _).1 h)), SolverParams.loop, hu3]
      dsimp only
      split_ifs <;> rfl
    unfold SolverParams.solveIter
    rw [this]
    exact ⟨_, rfl, rfl⟩
  obtain ⟨s1, hs1, n1⟩ := r1
  obtain ⟨s2, hs2, n2⟩ := r2
  refine ⟨D + 1, D, by positivity, hDpos, s1, s2, hs1, hs2, ?_⟩
  rw [n1, n2, hN, hN]
  exact fun h => d2 (hinj (Option.some.inj h)).symm

/-- C126 is violated by `solve_iter` of the GW solver: the difference of two Green's functions, an inverse energy, is compared
with a number. For every tolerance there is a calculation (an atom) and a unit, such that the particle number returned depends
on the unit. -/
theorem C126_gw_violated (tol : ℝ) (ht : 0 < tol) : ∃ (p p' : SolverParams (fun _ : Fin 1 => 1) Unit) (l : ℝ), SameGw l 0 p p' ∧
    ∃ s0 s0' s s', p.init none none = .ok s0 ∧ p'.init none none = .ok s0' ∧ s0' = unitState l 0 s0 ∧
      p.solveIter onlyHartree tol 3 s0 = .ok s ∧ p'.solveIter onlyHartree tol 3 s0' = .ok s' ∧ s'.N ≠ s.N := by
  obtain ⟨z0, hz0⟩ : ∃ z0, atom1.init none none = .ok z0 := by
    unfold SolverParams.init SolverParams.dyson
    simp only [show atom1.nFix = 0 from rfl, if_true]
    exact ⟨_, rfl⟩
  have hz : z0.mu = 0 ∧ level z0.g = 0 := by
    unfold SolverParams.init SolverParams.dyson at hz0
    simp only [show atom1.nFix = 0 from rfl, if_true] at hz0
    obtain rfl := Except.ok.inj hz0
    refine ⟨rfl, ?_⟩
    change -((atom1.dispatch 0 none 0 0 () ())⁻¹).re = 0
    rw [show atom1.dispatch 0 none 0 0 () () = _ from atom_g0 1 0 1 0 (0, 0) noBrent 0 0 () (), inv_inv]
    simp [matsubara_re]
  obtain ⟨t1, t2, h1, h2, s1, s2, hs1, hs2, hne⟩ := atom1_run z0 hz.1 hz.2
  set a := t1 / tol with ha
  have hapos : 0 < a := div_pos h1 ht
  set l := t2 / t1 with hl
  have hlpos : 0 < l := div_pos h2 h1
  have e1 := unitGw_same hapos 0 atom1
  have e2 := unitGw_same hlpos 0 (unitGw a 0 atom1)
  have i1 : (unitGw a 0 atom1).init none none = .ok (unitState a 0 z0) := by
    have := C126_gw_init e1 0 none
    rw [mul_zero, add_zero] at this
    rw [show atom1.init (some 0) none = .ok z0 from hz0] at this
    exact this
  have i2 : (unitGw l 0 (unitGw a 0 atom1)).init none none = .ok (unitState l 0 (unitState a 0 z0)) := by
    have := C126_gw_init e2 0 none
    rw [mul_zero, add_zero] at this
    rw [show (unitGw a 0 atom1).init (some 0) none = .ok (unitState a 0 z0) from i1] at this
    exact this
  refine ⟨unitGw a 0 atom1, unitGw l 0 (unitGw a 0 atom1), l, e2, _, _, unitState a 0 s1, unitState l 0 (unitState a 0 s2), i1, i2,
    rfl, ?_, ?_, ?_⟩
  · have := C126_gw_partial e1 onlyHartree t1 3 z0
    rw [hs1, show t1 / a = tol by rw [ha]; field_simp] at this
    exact this
  · have := C126_gw_partial e2 onlyHartree (l * tol) 3 (unitState a 0 z0)
    rw [mul_div_cancel_left₀ _ hlpos.ne'] at this
    rw [this]
    have h3 := C126_gw_partial e1 onlyHartree t2 3 z0
    rw [hs2, show t2 / a = l * tol by rw [ha, hl]; field_simp] at h3
    rw [h3]
    rfl
  · exact fun h => hne h.symm

/-! ## The default bracket of the chemical potential -/

/-- C126: the default bracket goes with the unit. -/
theorem C126_gw_bracket_partial {l : ℝ} (hl : 0 ≤ l) (e : Lat n → Matrix o o ℂ) :
    defaultBracket (affine (l : ℂ) 0 e) = (l * (defaultBracket e).1, l * (defaultBracket e).2) := by
  have h : ∀ x : Lat n × o × o, (affine (l : ℂ) 0 e x.1 x.2.1 x.2.2).re = l * (e x.1 x.2.1 x.2.2).re := by
    intro x
    simp [affine]
  unfold defaultBracket
  simp only [h]
  rw [Real.mul_iInf_of_nonneg hl, Real.mul_iSup_of_nonneg hl]

/-- one site with two orbitals, hopping `-1` and level `c` -/
def dimer (c : ℝ) : L1 → Matrix (Fin 2) (Fin 2) ℂ := fun _ => !![(c : ℂ), -1; -1, (c : ℂ)]

/-- C126 is violated by the default bracket of the chemical potential: it takes the extremes over all elements of the
dispersion, and those off the diagonal do not move with the zero of energy. Two orbitals with hopping `-1`: at level `0` the
chemical potential `-1/2` is inside of the bracket; with the zero of energy moved by `-1` the bracket is a single point and the
corresponding chemical potential `-3/2` outside. -/
theorem C126_gw_bracket_violated : affine 1 ((-1 : ℝ) : ℂ) (dimer 0) = dimer (-1) ∧
    (-1 / 2 : ℝ) ∈ Set.Ioo (defaultBracket (dimer 0)).1 (defaultBracket (dimer 0)).2 ∧
    ((1 : ℝ) * (-1 / 2) + -1) ∉ Set.Icc (defaultBracket (dimer (-1))).1 (defaultBracket (dimer (-1))).2 := by
  have hb : ∀ c : ℝ, ∀ x : L1 × Fin 2 × Fin 2, (dimer c x.1 x.2.1 x.2.2).re = if x.2.1 = x.2.2 then c else -1 := by
    rintro c ⟨x, i, j⟩
    fin_cases i <;> fin_cases j <;> simp [dimer]
  refine ⟨?_, ?_, ?_⟩
  · funext k
    ext i j
    fin_cases i <;> fin_cases j <;> simp [affine, dimer]
  · unfold defaultBracket
    simp only [hb]
    constructor
    · refine lt_of_le_of_lt (ciInf_le (Set.finite_range _).bddBelow ((0, 0, 1) : L1 × Fin 2 × Fin 2)) ?_
      norm_num
    · refine lt_of_lt_of_le ?_ (le_ciSup (Set.finite_range _).bddAbove ((0, 0, 0) : L1 × Fin 2 × Fin 2))
      norm_num
  · intro h
    have h1 := h.1
    unfold defaultBracket at h1
    simp only [hb, ite_self, ciInf_const] at h1
    norm_num at h1

end Verif.Units
