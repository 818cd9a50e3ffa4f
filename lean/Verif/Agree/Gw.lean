import Verif.Agree.Bse
import Verif.Gw.SolverAtom
import Verif.Gw.TensorProps
import Verif.HartreeFock.SolverState
import Verif.HfResponse.DFermi

/-!
# C130: the GW solver without the dynamical part and the Hartree-Fock solver

`GWSolver.solve_iter(hartree=True, fock=True, gw=False)` with the tensor of `get_gw_tensor` at every momentum, and
`HartreeFockSolver` with the same Hamiltonian, make the same approximation.
-/

noncomputable section

set_option linter.unusedSectionVars false

namespace Verif.Agree

open Verif.Parallel Verif.Fourier Verif.Gw Verif.HfResponse Matrix
open Verif.Operators (Mono Op)

variable {d : ℕ} {n : Fin d → ℕ} [∀ i, NeZero (n i)]

/-! ## Specification -/

/-- density matrix per unit cell that belongs to a Green's function, in the index order of the Hartree-Fock solver -/
def cellMatrix {m : ℕ} (p : SolverParams n (Fin m)) (g : Bubble.G n (Fin m)) : Matrix (Fin m) (Fin m) ℂ :=
  HartreeFock.density fun q i j => p.pieces.dens fun w => g w q i j

/-- the density routine is exact for the Green's function of the static self energy `M` at the chemical potential
`mu`: it returns the Fermi function of the shifted bands -/
def ExactAt {m : ℕ} (p : SolverParams n (Fin m)) (mu : ℝ) (M : Matrix (Fin m) (Fin m) ℂ) : Prop :=
  ∀ k i j, (p.pieces.dens fun w => p.dispatch mu (some fun _ _ => M) w k i j)
    = fermiMatrix p.beta (p.e k + M - (mu : ℂ) • 1) i j

/-- Hartree and Fock part, no dynamical part -/
def meanFieldFlags (spinless : Bool) : Flags := { hartree := true, fock := true, gw := false, spinless := spinless }

section
variable {ι : Type} [LinearOrder ι] {fs : List ι} {ts : List (Mono ι × ℂ)} {V Γ : Operators.T4 fs.length}
  {p : SolverParams n (Fin fs.length)}

theorem cellMatrix_eq (hm : GoodMeshes p) (g : Bubble.G n (Fin fs.length)) :
    cellMatrix p g = HartreeFock.density fun q i j => p.rhoK g q j i := by
  rw [rhoK_eq hm]
  rfl

/-- C130, GW: a sweep with the Hartree and the Fock part gives the self energy of the Hartree-Fock solver for the density
matrix of the Green's function it starts from, at every frequency and every momentum. -/
theorem C130_gw_sigma (hm : GoodMeshes p) (hV : getGwTensor fs ts = .ok V) (hΓ : Operators.getRpaTensor fs ts = .ok Γ)
    (hpV : p.V = fun _ => V) (sp : Bool) (mu : ℝ) (g : Bubble.G n (Fin fs.length)) (t : Sweep n (Fin fs.length))
    (h : p.sweep (meanFieldFlags sp) mu g = .ok t) :
    t.sigma = fun _ _ => HartreeFock.meanField Γ (cellMatrix p g) := by
  obtain ⟨h1, h2, -, -, -, -, h7, -⟩ := sweep_ok _ mu g t h
  funext w k a b
  have h8 := congrFun (congrFun (h7 w k) a) b
  refine h8.trans ?_
  simp only [meanFieldFlags, if_true, Bool.false_eq_true, if_false, Pi.add_apply]
  rw [h1, h2, cellMatrix_eq hm, ← C88_lattice hm.ranks hm.lat fs ts V Γ hV hΓ (p.rhoK g) k a b]
  simp only [SolverParams.sigmaHartree, SolverParams.sigmaFock, SolverParams.rhoR, hpV]
  exact add_zero _

theorem cellMatrix_dispatch {mu : ℝ} {M : Matrix (Fin fs.length) (Fin fs.length) ℂ} (hx : ExactAt p mu M) :
    cellMatrix p (p.dispatch mu (some fun _ _ => M))
      = HartreeFock.thermalDensity p.beta (fun k => p.e k + M) mu := by
  ext i j
  simp only [cellMatrix, HartreeFock.density, HartreeFock.thermalDensity, Matrix.smul_apply, Matrix.sum_apply,
    smul_eq_mul]
  rw [div_eq_inv_mul]
  congr 1
  exact Finset.sum_congr rfl fun k _ => hx k i j

/-- C130, GW: the density matrix after the sweep is the one after a `density_matrix_step` of the Hartree-Fock solver
at the same chemical potential, started from the density matrix before the sweep. -/
theorem C130_gw_step (hm : GoodMeshes p) (hV : getGwTensor fs ts = .ok V) (hΓ : Operators.getRpaTensor fs ts = .ok Γ)
    (hpV : p.V = fun _ => V) (sp : Bool) (mu : ℝ) (g : Bubble.G n (Fin fs.length)) (t : Sweep n (Fin fs.length))
    (h : p.sweep (meanFieldFlags sp) mu g = .ok t)
    (hx : ExactAt p t.mu (HartreeFock.meanField Γ (cellMatrix p g)))
    {W : Type} [NeZero fs.length] (hf : HartreeFock.Params fs.length (Lat n) W) (hU : hf.U = Γ) (he : hf.ek = p.e)
    (hb : hf.beta = p.beta) (hs : Lindhard.EigSpec hf.eig) (s s' : HartreeFock.State fs.length (Lat n)) (v new : W)
    (hv : hf.vec2mat v = cellMatrix p g) (hmu : s.mu = t.mu)
    (hh : ∀ k, (p.e k + HartreeFock.meanField Γ (cellMatrix p g)).IsHermitian)
    (hd : HartreeFock.densityStep hf s v none = .ok (s', new)) :
    s'.rho = cellMatrix p t.g := by
  have h1 := C130_gw_sigma hm hV hΓ hpV sp mu g t h
  obtain ⟨-, -, -, -, -, -, -, h8⟩ := sweep_ok _ mu g t h
  obtain ⟨hg, -⟩ := dyson_ok _ _ _ _ h8
  rw [h1] at hg
  rw [hg, cellMatrix_dispatch hx]
  obtain ⟨h2, -⟩ := Prod.mk.inj (Except.ok.inj hd)
  subst h2
  have h3 : ∀ k, (HartreeFock.meanFieldDispersion hf.ek (HartreeFock.meanField hf.U (hf.vec2mat v)) k).IsHermitian := by
    intro k
    rw [he, hU, hv]
    exact hh k
  have h4 := HartreeFock.density_eq hf.beta s.mu hs _ h3
  rw [hb, hmu, he, hU, hv] at h4
  refine Eq.trans ?_ h4
  change HartreeFock.density (HartreeFock.momentumDensity hf.beta s.mu
    (fun k => (hf.eig (HartreeFock.meanFieldDispersion hf.ek (HartreeFock.meanField hf.U (hf.vec2mat v)) k)).1)
    (fun k => (hf.eig (HartreeFock.meanFieldDispersion hf.ek (HartreeFock.meanField hf.U (hf.vec2mat v)) k)).2)) = _
  rw [hb, hmu, he, hU, hv]

/-- C130, GW: both solvers look for the zero of the same function of the chemical potential. -/
theorem C130_gw_target (hm : GoodMeshes p) {M : Matrix (Fin fs.length) (Fin fs.length) ℂ} {mu : ℝ} (hx : ExactAt p mu M)
    {W : Type} (hf : HartreeFock.Params fs.length (Lat n) W) (hb : hf.beta = p.beta) (hs : Lindhard.EigSpec hf.eigv)
    (s : HartreeFock.State fs.length (Lat n)) (hk : ∀ k, s.ekMF k = p.e k + M) (hh : ∀ k, (p.e k + M).IsHermitian) :
    p.target (some fun _ _ => M) mu = HartreeFock.targetFunction hf s p.nFix mu := by
  have hk' : s.ekMF = fun k => p.e k + M := funext hk
  rw [HartreeFock.target_eq hf hs s (fun k => by rw [hk k]; exact hh k), hk', hb]
  unfold SolverParams.target
  congr 1
  have h1 := cellMatrix_dispatch hx
  have h2 : totalDensity (p.rhoR (p.dispatch mu (some fun _ _ => M))) = (Matrix.trace (cellMatrix p
      (p.dispatch mu (some fun _ _ => M)))).re := by
    rw [cellMatrix_eq hm, Matrix.trace, Complex.re_sum, totalDensity]
    refine Finset.sum_congr rfl fun a _ => ?_
    rw [SolverParams.rhoR, kToR_apply2, (C06_normalisation _).1]
    simp only [Matrix.diag_apply, HartreeFock.density, smul_eq_mul]
    rw [div_eq_inv_mul]
  rw [h2, h1, HartreeFock.thermalDensity, HartreeFock.filling, Matrix.trace_smul, Matrix.trace_sum, smul_eq_mul,
    ← Complex.ofReal_natCast, ← Complex.ofReal_inv, Complex.re_ofReal_mul, Complex.re_sum, div_eq_inv_mul]

/-- C130, GW: a Green's function that a sweep reproduces belongs to a self-consistent density matrix of the
Hartree-Fock equations at the same chemical potential. -/
theorem C130_gw_solution (hm : GoodMeshes p) (hV : getGwTensor fs ts = .ok V) (hΓ : Operators.getRpaTensor fs ts = .ok Γ)
    (hpV : p.V = fun _ => V) (sp : Bool) (mu : ℝ) (g : Bubble.G n (Fin fs.length)) (t : Sweep n (Fin fs.length))
    (h : p.sweep (meanFieldFlags sp) mu g = .ok t) (hfix : t.g = g)
    (hx : ExactAt p t.mu (HartreeFock.meanField Γ (cellMatrix p g))) :
    SelfConsistent p.beta t.mu p.e Γ 0 (cellMatrix p g) := by
  have h1 := C130_gw_sigma hm hV hΓ hpV sp mu g t h
  obtain ⟨-, -, -, -, -, -, -, h8⟩ := sweep_ok _ mu g t h
  obtain ⟨hg, -⟩ := dyson_ok _ _ _ _ h8
  rw [h1] at hg
  have h2 := cellMatrix_dispatch hx
  rw [← hg, hfix] at h2
  unfold SelfConsistent
  refine h2.trans ?_
  simp only [HartreeFock.thermalDensity, add_zero]

/-- C130, GW: every self-consistent density matrix of the Hartree-Fock equations is a fixed point of the GW solver: the sweep that
starts from the Green's function of its mean field ends with it, with the mean field as self energy. -/
theorem C130_gw_converse (hm : GoodMeshes p) (hV : getGwTensor fs ts = .ok V)
    (hΓ : Operators.getRpaTensor fs ts = .ok Γ) (hpV : p.V = fun _ => V) (hN : p.nFix = 0) (sp : Bool) (mu : ℝ)
    (rho : Matrix (Fin fs.length) (Fin fs.length) ℂ) (hr : SelfConsistent p.beta mu p.e Γ 0 rho)
    (hx : ExactAt p mu (HartreeFock.meanField Γ rho)) :
    ∃ t, p.sweep (meanFieldFlags sp) mu (p.dispatch mu (some fun _ _ => HartreeFock.meanField Γ rho)) = .ok t ∧
      t.g = p.dispatch mu (some fun _ _ => HartreeFock.meanField Γ rho) ∧ t.mu = mu ∧
      (t.sigma = fun _ _ => HartreeFock.meanField Γ rho) ∧ cellMatrix p t.g = rho := by
  set g := p.dispatch mu (some fun _ _ => HartreeFock.meanField Γ rho) with hgdef
  have hc : cellMatrix p g = rho := by
    rw [hgdef, cellMatrix_dispatch hx]
    unfold SelfConsistent at hr
    refine Eq.trans ?_ hr.symm
    simp only [HartreeFock.thermalDensity, add_zero]
  have hok : ∃ t, p.sweep (meanFieldFlags sp) mu g = .ok t := by
    unfold SolverParams.sweep SolverParams.dyson
    simp only [hN, if_true]
    exact ⟨_, rfl⟩
  obtain ⟨t, ht⟩ := hok
  have h1 := C130_gw_sigma hm hV hΓ hpV sp mu g t ht
  obtain ⟨-, -, -, -, -, -, -, h8⟩ := sweep_ok _ mu g t ht
  obtain ⟨hg, hmu, -⟩ := dyson_ok _ _ _ _ h8
  rw [hc] at h1
  rw [h1, hmu hN] at hg
  refine ⟨t, ht, hg, hmu hN, h1, ?_⟩
  rw [hg]
  exact hc

end

end Verif.Agree
