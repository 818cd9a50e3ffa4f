import Verif.Gw.SolverProps
import Verif.HartreeFock.SolverProps

/-!
# C87, C89: one orbital atom as a concrete case; chemical potential at fixed density
-/

set_option linter.unusedSectionVars false

noncomputable section

namespace Verif.Gw

open Complex Verif.Parallel Verif.Fourier Verif.Bubble Verif.Dyson Verif.Rpa

/-- one site -/
abbrev L1 := Lat (fun _ : Fin 1 => 1)

/-- pieces of an isolated orbital with a static self energy: `1 / g(iω₀) = iω₀ + μ - ε - Σ`, from which the exact
occupation follows -/
def atomPieces (beta : ℝ) : Pieces where
  gToTau x t := x t
  wToTau x t := x t
  toFreq x w := x w.toNat
  tail0 x := x 0
  dens x := (HartreeFock.fermi beta (-((x 0)⁻¹).re) : ℂ)
  ntau nw := 6 * nw + 1

/-- one orbital at energy `eps` with interaction `u` -/
def atom (beta eps u nFix : ℝ) (bracket : ℝ × ℝ) (brentq : HartreeFock.Brentq) :
    SolverParams (fun _ : Fin 1 => 1) Unit where
  ranks := 1
  lat := [0]
  freqs := [0]
  bfreqs := [0]
  nw := 2
  beta := beta
  L := 13
  val := fun m => matsubara .fermion beta m
  pieces := atomPieces beta
  boseFreq := fun x w => x w.toNat
  e := fun _ => Matrix.of fun _ _ => (eps : ℂ)
  V := fun _ _ _ _ _ => (u : ℂ)
  nFix := nFix
  bracket := bracket
  brentq := brentq

theorem atom_good (beta eps u nFix : ℝ) (bracket : ℝ × ℝ) (brentq : HartreeFock.Brentq) :
    GoodMeshes (atom beta eps u nFix bracket brentq) where
  ranks := Nat.one_pos
  lat := ⟨List.nodup_singleton _, fun k => by
    rw [show k = 0 from Subsingleton.elim _ _]; exact List.mem_singleton.2 rfl⟩
  freqs := List.nodup_singleton _
  bfreqs := List.nodup_singleton _

theorem inv_unit (M : Matrix Unit Unit ℂ) : M⁻¹ () () = (M () ())⁻¹ := by
  rw [Matrix.inv_subsingleton, Ring.inverse_eq_inv']
  simp [Matrix.diagonal]

section
variable (beta eps u nFix : ℝ) (bracket : ℝ × ℝ) (brentq : HartreeFock.Brentq)

theorem atom_g (mu : ℝ) (s : ℤ → L1 → Unit → Unit → ℂ) (k : L1) (a b : Unit) :
    (atom beta eps u nFix bracket brentq).dispatch mu (some s) 0 k a b
      = (matsubara .fermion beta 0 + mu - eps - s 0 0 () ())⁻¹ := by
  obtain rfl : k = 0 := Subsingleton.elim _ _
  have h := dispatch_some (atom_good beta eps u nFix bracket brentq) mu s 0 (List.mem_singleton.2 rfl) 0
  have h2 := congrFun (congrFun h ()) ()
  rw [inv_unit] at h2
  refine h2.trans ?_
  congr 1
  simp [atom]

theorem atom_g0 (mu : ℝ) (k : L1) (a b : Unit) :
    (atom beta eps u nFix bracket brentq).dispatch mu none 0 k a b
      = (matsubara .fermion beta 0 + mu - eps)⁻¹ := by
  obtain rfl : k = 0 := Subsingleton.elim _ _
  have h := dispatch_none (atom_good beta eps u nFix bracket brentq) mu 0 (List.mem_singleton.2 rfl) 0
  have h2 := congrFun (congrFun h ()) ()
  rw [inv_unit] at h2
  refine h2.trans ?_
  congr 1
  simp [atom]

theorem matsubara_re (beta : ℝ) (m : ℤ) : (matsubara .fermion beta m).re = 0 := by
  have : matsubara .fermion beta m = I * (((2 * m + 1) * Real.pi / beta : ℝ) : ℂ) := by
    unfold matsubara; push_cast; rfl
  rw [this, Complex.I_mul_re, Complex.ofReal_im, neg_zero]

/-- occupation of the orbital -/
theorem atom_rho (g : G (fun _ : Fin 1 => 1) Unit) (k : L1) (a b : Unit) :
    rhoSpec (atom beta eps u nFix bracket brentq) g k a b = (HartreeFock.fermi beta (-((g 0 0 () ())⁻¹).re) : ℂ) := by
  obtain rfl : k = 0 := Subsingleton.elim _ _
  rfl

theorem card_L1 : Fintype.card L1 = 1 := Fintype.card_eq_one_iff.2 ⟨0, fun _ => Subsingleton.elim _ _⟩

theorem atom_total (g : G (fun _ : Fin 1 => 1) Unit) :
    totalDensity ((atom beta eps u nFix bracket brentq).rhoR g) = HartreeFock.fermi beta (-((g 0 0 () ())⁻¹).re) := by
  have hg := atom_good beta eps u nFix bracket brentq
  unfold totalDensity SolverParams.rhoR
  rw [rhoK_eq hg, Fintype.sum_unique, kToR_apply2, (C06_normalisation _).1, card_L1, Fintype.sum_unique, atom_rho]
  simp

/-- the target function at a static self energy is the Fermi function of the shifted level -/
theorem atom_target (s : ℤ → L1 → Unit → Unit → ℂ) (sig : ℝ) (hs : s 0 0 () () = sig) (mu : ℝ) :
    (atom beta eps u nFix bracket brentq).target (some s) mu = HartreeFock.fermi beta (eps + sig - mu) - nFix := by
  unfold SolverParams.target
  rw [atom_total, atom_g, hs, inv_inv]
  congr 2
  simp [matsubara_re]
  ring

theorem atom_target0 (mu : ℝ) :
    (atom beta eps u nFix bracket brentq).target none mu = HartreeFock.fermi beta (eps - mu) - nFix := by
  unfold SolverParams.target
  rw [atom_total, atom_g0, inv_inv]
  congr 2
  simp [matsubara_re]

theorem atom_hartree (g : G (fun _ : Fin 1 => 1) Unit) (a b : Unit) :
    hartreeSpec (atom beta eps u nFix bracket brentq) g a b
      = u * (HartreeFock.fermi beta (-((g 0 0 () ())⁻¹).re) : ℂ) := by
  unfold hartreeSpec
  rw [Fintype.sum_unique, Fintype.sum_unique, Fintype.sum_unique, card_L1, atom_rho]
  simp [atom]

end

/-! ## C87, concrete cases -/

/-- a root finder that refuses everything; not called when the density is free -/
def noBrent : HartreeFock.Brentq := fun _ _ _ => .error "ValueError"

theorem fermi_pos (beta e : ℝ) : 0 < HartreeFock.fermi beta e := by
  unfold HartreeFock.fermi; positivity

/-- C87 (parts) is violated in general: after a second call with the Hartree part switched off the reported self energy
vanishes, while the reported Hartree part is the one of the first call. One orbital, `U = 1`. -/
theorem C87_parts_violated : ∃ p : SolverParams (fun _ : Fin 1 => 1) Unit, GoodMeshes p ∧ ∃ s0 s1 s2 H,
    p.init none none = .ok s0 ∧
    p.solveIter { hartree := true, fock := false, gw := false } (1 / 10 ^ 7) 100 s0 = .ok s1 ∧
    p.solveIter { hartree := false, fock := false, gw := false } (1 / 10 ^ 7) 100 s1 = .ok s2 ∧
    (∀ w k a b, s2.sigma w k a b = 0) ∧ s2.sigmaHartree = some H ∧ H 0 () () ≠ 0 := by
  set p := atom 1 0 1 0 (0, 0) noBrent with hp
  have hg : GoodMeshes p := atom_good _ _ _ _ _ _
  obtain ⟨s0, h0, -⟩ := C87_init hg rfl none none
  obtain ⟨s1, h1⟩ := C87_total (p := p) rfl { hartree := true, fock := false, gw := false } (1 / 10 ^ 7) 100
    (by norm_num) s0
  obtain ⟨s2, h2⟩ := C87_total (p := p) rfl { hartree := false, fock := false, gw := false } (1 / 10 ^ 7) 100
    (by norm_num) s1
  obtain ⟨m, steps, -, ha, hb, -, -, -, -, hH, -, -⟩ := C87_run hg _ _ 100 (by norm_num) s0 s1 h1
  obtain ⟨m', steps', -, ha', hb', -, -, hsig, -, -, -, -⟩ := C87_run hg _ _ 100 (by norm_num) s1 s2 h2
  refine ⟨p, hg, s0, s1, s2, (steps m).hartree, h0, h1, h2, fun w k a b => ?_, ?_, ?_⟩
  · rw [hsig]
    cases m' with
    | zero => rw [ha'.sigma]; simp
    | succ m' => rw [(hb' m' (by omega)).sigma]; simp
  · rw [(solveIter_stale _ _ _ _ _ h2).1 rfl]
    exact hH rfl
  · have : ∀ g, hartreeSpec p g () () ≠ 0 := by
      intro g
      rw [hp, atom_hartree]
      exact mul_ne_zero (by simp) (by exact_mod_cast (fermi_pos _ _).ne')
    cases m with
    | zero => rw [ha.hartree]; exact this _
    | succ m => rw [(hb m (by omega)).hartree]; exact this _

/-- C87 (Dyson) is violated for `maxiter = 0`: the self energy is reported as zero while the Green's function stays. -/
theorem C87_no_iteration_violated : ∃ p : SolverParams (fun _ : Fin 1 => 1) Unit, GoodMeshes p ∧ ∃ s0 s1 s2,
    p.init none none = .ok s0 ∧
    p.solveIter { hartree := true, fock := false, gw := false } (1 / 10 ^ 7) 1 s0 = .ok s1 ∧
    p.solveIter { hartree := true, fock := false, gw := false } (1 / 10 ^ 7) 0 s1 = .ok s2 ∧
    ¬ SolvesDyson (p.val 0) (s2.mu : ℂ) (p.e 0) (Matrix.of (s2.sigma 0 0)) (Matrix.of (s2.g 0 0)) := by
  set p := atom 1 0 1 0 (0, 0) noBrent with hp
  have hg : GoodMeshes p := atom_good _ _ _ _ _ _
  obtain ⟨s0, h0, -⟩ := C87_init hg rfl none none
  obtain ⟨s1, h1⟩ := C87_total (p := p) rfl { hartree := true, fock := false, gw := false } (1 / 10 ^ 7) 1
    (by norm_num) s0
  obtain ⟨m, steps, hm, ha, -, hg1, hmu1, hs1, -⟩ := C87_run hg _ _ 1 (by norm_num) s0 s1 h1
  obtain rfl : m = 0 := by omega
  have hS : s1.sigma 0 0 () () = ((HartreeFock.fermi 1 (-((s0.g 0 0 () ())⁻¹).re) : ℝ) : ℂ) := by
    rw [hs1, ha.sigma, hp, atom_hartree]; simp
  refine ⟨p, hg, s0, s1, _, h0, h1, by unfold SolverParams.solveIter; rw [SolverParams.loop]; rfl, fun hd => ?_⟩
  -- the Green's function solves the equation with the self energy of the first call
  have hne : ((p.val 0 + (s1.mu : ℂ)) • (1 : Matrix Unit Unit ℂ) - p.e 0 - Matrix.of (s1.sigma 0 0)).det ≠ 0 := by
    rw [Matrix.det_unique]
    intro hz
    have := congrArg Complex.im hz
    simp [hp, atom, hS, matsubara, Real.pi_ne_zero] at this
  have hd1 := C87_dyson hg _ _ 1 (by norm_num) s0 s1 h1 0 (List.mem_singleton.2 rfl) 0 (isUnit_iff_ne_zero.2 hne)
  have e1 := congrFun (congrFun hd.1 ()) ()
  have e2 := congrFun (congrFun hd1.1 ()) ()
  rw [Matrix.mul_apply, Fintype.sum_unique] at e1 e2
  have hgne : s1.g 0 0 () () ≠ 0 := by
    intro hz
    simp [hz] at e2
  have : s1.sigma 0 0 () () * s1.g 0 0 () () = 0 := by
    simp only [Matrix.sub_apply, Matrix.smul_apply, Matrix.of_apply, Matrix.one_apply_eq, smul_eq_mul, mul_one,
      Pi.zero_apply, sub_zero, PUnit.default_eq_unit] at e1 e2
    linear_combination e1 - e2
  rcases mul_eq_zero.1 this with h | h
  · rw [hS] at h
    exact (fermi_pos _ _).ne' (by exact_mod_cast h)
  · exact hgne h

end Verif.Gw
