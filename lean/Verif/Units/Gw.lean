import Verif.Units.Hf
import Verif.Gw.Solver
import Verif.Gw.G0w

/-!
# C126: unit and zero of energy of the GW solver and of the one shot GW self energy
-/

set_option linter.unusedSectionVars false

noncomputable section

namespace Verif.Units

open Verif.Parallel Verif.Fourier Verif.Bubble Verif.Gw Verif.Rpa Verif.Dyson

section Gw

variable {d : ℕ} {n : Fin d → ℕ} [∀ i, NeZero (n i)] {o : Type} [Fintype o] [DecidableEq o] {l c : ℝ}

/-- The same calculation in another unit and with another zero of energy. The transforms carry the inverse temperature:
`1 / β Σ` and `∫ dτ`. -/
structure SameGw (l c : ℝ) (p p' : SolverParams n o) : Prop where
  pos : 0 < l
  ranks : p'.ranks = p.ranks
  lat : p'.lat = p.lat
  freqs : p'.freqs = p.freqs
  bfreqs : p'.bfreqs = p.bfreqs
  nw : p'.nw = p.nw
  L : p'.L = p.L
  beta : p'.beta = p.beta / l
  val : p'.val = fun w => (l : ℂ) * p.val w
  gToTau : ∀ f, p'.pieces.gToTau ((l : ℂ)⁻¹ • f) = p.pieces.gToTau f
  wToTau : ∀ f, p'.pieces.wToTau ((l : ℂ) • f) = (l : ℂ) ^ 2 • p.pieces.wToTau f
  toFreq : ∀ f, p'.pieces.toFreq ((l : ℂ) ^ 2 • f) = (l : ℂ) • p.pieces.toFreq f
  dens : ∀ f, p'.pieces.dens ((l : ℂ)⁻¹ • f) = p.pieces.dens f
  boseFreq : ∀ f, p'.boseFreq f = (l : ℂ)⁻¹ • p.boseFreq f
  e : p'.e = affine (l : ℂ) (c : ℂ) p.e
  V : p'.V = (l : ℂ) • p.V
  nFix : p'.nFix = p.nFix
  bracket : p'.bracket = (l * p.bracket.1 + c, l * p.bracket.2 + c)
  brentq : ∀ f a b, p'.brentq (fun x => f ((x - c) / l)) (l * a + c) (l * b + c) = (p.brentq f a b).map fun x => l * x + c

variable {p p' : SolverParams n o}

theorem SameGw.ne (h : SameGw l c p p') : (l : ℂ) ≠ 0 := Complex.ofReal_ne_zero.2 h.pos.ne'

theorem rToK_smul {E : Type*} [AddCommGroup E] [Module ℂ E] (a : ℂ) (f : Lat n → E) : rToK (a • f) = a • rToK f := by
  funext r
  simp only [rToK, fftw, Pi.smul_apply, Finset.smul_sum]
  refine Finset.sum_congr rfl fun k _ => ?_
  rw [smul_comm a]

theorem rhoK_units (h : SameGw l c p p') (g : G n o) : p'.rhoK ((l : ℂ)⁻¹ • g) = p.rhoK g := by
  unfold SolverParams.rhoK Gw.rhoK
  rw [h.ranks, h.lat]
  congr 1
  funext k i j
  exact h.dens fun w => g w k j i

theorem rhoR_units (h : SameGw l c p p') (g : G n o) : p'.rhoR ((l : ℂ)⁻¹ • g) = p.rhoR g := by
  unfold SolverParams.rhoR
  rw [rhoK_units h]

theorem hartree_units (h : SameGw l c p p') (g : G n o) : p'.sigmaHartree ((l : ℂ)⁻¹ • g) = (l : ℂ) • p.sigmaHartree g := by
  unfold SolverParams.sigmaHartree
  rw [rhoR_units h, h.V, ← rToK_smul]
  congr 1
  funext r
  unfold hartreeR
  by_cases hr : r = 0
  · subst hr
    simp only [Function.update_self, Pi.smul_apply]
    funext a b
    simp only [Pi.smul_apply, smul_eq_mul, Finset.mul_sum, mul_assoc]
  · simp only [Function.update_of_ne hr, Pi.smul_apply, smul_zero]

theorem fock_units (h : SameGw l c p p') (g : G n o) : p'.sigmaFock ((l : ℂ)⁻¹ • g) = (l : ℂ) • p.sigmaFock g := by
  unfold SolverParams.sigmaFock fockR
  rw [rhoR_units h, h.V, h.ranks, h.lat, kToR_smul, ← rToK_smul]
  congr 1
  refine Eq.trans ?_ (distributedAssign_smul (l : ℂ) p.ranks p.lat fun r a b => ∑ c, ∑ d, -kToR p.V r a c d b * p.rhoR g r d c)
  congr 1
  funext r a b
  simp only [Pi.smul_apply, smul_eq_mul, Finset.mul_sum]
  refine Finset.sum_congr rfl fun _ _ => Finset.sum_congr rfl fun _ _ => ?_
  ring

theorem gTr_units (h : SameGw l c p p') (g : G n o) : p'.gTr ((l : ℂ)⁻¹ • g) = p.gTr g := by
  funext t r a b
  unfold SolverParams.gTr
  rw [← h.gToTau]
  congr 1
  funext w
  have : ((l : ℂ)⁻¹ • g) w = (l : ℂ)⁻¹ • g w := rfl
  rw [this, kToR_smul]
  rfl

theorem chi0_units (h : SameGw l c p p') (g : G n o) : p'.chi0 ((l : ℂ)⁻¹ • g) = (l : ℂ)⁻¹ • p.chi0 g := by
  unfold SolverParams.chi0
  rw [gTr_units h, h.nw, h.ranks, h.lat, h.L]
  split_ifs
  · funext w
    rw [Pi.smul_apply]
    split_ifs
    · rw [← rToK_smul]
      congr 1
      have := (C126_bubble (n := n) (o := o) h.ne 0 p.ranks p.beta 0 p.lat 0 (fun _ => 0) (fun _ => 0) (fun _ => 0) p.L
        (p.gTr g)).2.2.2
      rw [h.beta, Complex.ofReal_div, div_eq_inv_mul, this]
      rfl
    · rw [smul_zero]
  · funext w
    rw [Pi.smul_apply, ← rToK_smul]
    congr 1
    funext r a b c d
    exact congrFun (h.boseFreq _) w

theorem polarization_units (h : SameGw l c p p') (g : G n o) :
    p'.polarization ((l : ℂ)⁻¹ • g) = (l : ℂ)⁻¹ • p.polarization g := by
  funext w k
  unfold SolverParams.polarization
  rw [chi0_units h]
  simp only [Pi.smul_apply, smul_neg]

theorem screened_units (h : SameGw l c p p') (sl : Bool) (P : ℤ → Lat n → Bubble.T4 o) :
    p'.screened sl ((l : ℂ)⁻¹ • P) = (l : ℂ) • p.screened sl P := by
  unfold SolverParams.screened
  dsimp only
  rw [h.ranks, h.bfreqs, h.lat, h.V]
  refine Eq.trans ?_ (distributedAssign_smul (l : ℂ) p.ranks (prodMesh p.bfreqs p.lat) fun x =>
    screenedOptPoint (if sl then (2 : ℂ) • P x.1 x.2 else P x.1 x.2) (p.V x.2))
  congr 1
  funext x
  rw [← screenedOptPoint_smul h.ne]
  congr 1
  cases sl
  · rfl
  · exact smul_comm (2 : ℂ) (l : ℂ)⁻¹ (P x.1 x.2)

theorem susceptibility_units (h : SameGw l c p p') (P : ℤ → Lat n → Bubble.T4 o) (W : ℤ × Lat n → Bubble.T4 o) :
    p'.susceptibility ((l : ℂ)⁻¹ • P) ((l : ℂ) • W) = (l : ℂ)⁻¹ • p.susceptibility P W := by
  unfold SolverParams.susceptibility
  rw [h.ranks, h.bfreqs, h.lat]
  refine Eq.trans ?_ (distributedAssign_smul (l : ℂ)⁻¹ p.ranks (prodMesh p.bfreqs p.lat) fun x =>
    screenedGeneralizedPoint (W x) ((Bare.dynamic P).at x.1 x.2))
  congr 1
  funext x
  rw [← screenedGeneralizedPoint_smul (inv_ne_zero h.ne), inv_inv]
  rfl

theorem wDyn_units (h : SameGw l c p p') (W : ℤ × Lat n → Bubble.T4 o) : p'.wDyn ((l : ℂ) • W) = (l : ℂ) • p.wDyn W := by
  unfold SolverParams.wDyn
  rw [h.bfreqs, h.V]
  generalize p.bfreqs = fs
  induction fs generalizing W with
  | nil => rfl
  | cons w fs ih =>
    rw [List.foldl_cons, List.foldl_cons, ← ih]
    congr 1
    funext x
    simp only [Pi.smul_apply]
    split_ifs
    · rw [smul_sub]
    · rfl

theorem sigmaDyn_units (h : SameGw l c p p') (W : ℤ × Lat n → Bubble.T4 o) (g : G n o) :
    p'.sigmaDyn ((l : ℂ) • W) ((l : ℂ)⁻¹ • g) = (l : ℂ) • p.sigmaDyn W g := by
  unfold SolverParams.sigmaDyn
  dsimp only
  rw [gTr_units h, h.ranks, h.lat, h.L]
  have hW : (fun (t : ℕ) (r : Lat n) (a b c d : o) => p'.pieces.wToTau (fun w => kToR (fun k => ((l : ℂ) • W) (w, k)) r a b c d) t)
      = (l : ℂ) ^ 2 • fun (t : ℕ) (r : Lat n) (a b c d : o) => p.pieces.wToTau (fun w => kToR (fun k => W (w, k)) r a b c d) t := by
    funext t r a b c d
    have h1 : (fun w => kToR (fun k => ((l : ℂ) • W) (w, k)) r a b c d) = (l : ℂ) • fun w => kToR (fun k => W (w, k)) r a b c d := by
      funext w
      have h2 : (fun k => ((l : ℂ) • W) (w, k)) = (l : ℂ) • fun k => W (w, k) := rfl
      rw [h2, kToR_smul]
      rfl
    rw [h1, h.wToTau]
    rfl
  have hs : distributedAssign p.ranks ((List.range (p.L + 1)).product p.lat) (fun x : ℕ × Lat n => gwPoint
        ((fun (t : ℕ) (r : Lat n) (a b c d : o) => p'.pieces.wToTau (fun w => kToR (fun k => ((l : ℂ) • W) (w, k)) r a b c d) t) x.1 x.2)
        (p.gTr g x.1 x.2))
      = fun x => (l : ℂ) ^ 2 • distributedAssign p.ranks ((List.range (p.L + 1)).product p.lat) (fun x : ℕ × Lat n => gwPoint
        ((fun (t : ℕ) (r : Lat n) (a b c d : o) => p.pieces.wToTau (fun w => kToR (fun k => W (w, k)) r a b c d) t) x.1 x.2)
        (p.gTr g x.1 x.2)) x := by
    rw [← distributedAssign_smul, hW]
    congr 1
    funext x a b
    simp only [gwPoint, Pi.smul_apply, smul_eq_mul, Finset.mul_sum]
    refine Finset.sum_congr rfl fun _ _ => Finset.sum_congr rfl fun _ _ => ?_
    ring
  dsimp only at hs
  rw [hs]
  funext w k a b
  have h3 : ∀ (S : ℕ × Lat n → o → o → ℂ), (fun (r : Lat n) (a b : o) => p'.pieces.toFreq (fun t => ((l : ℂ) ^ 2 • S (t, r)) a b) w)
      = (l : ℂ) • fun (r : Lat n) (a b : o) => p.pieces.toFreq (fun t => S (t, r) a b) w := by
    intro S
    funext r a b
    exact congrFun (h.toFreq fun t => S (t, r) a b) w
  rw [h3, rToK_smul]
  rfl

theorem dispatch_units (h : SameGw l c p p') (mu : ℝ) (sigma : Option (ℤ → Lat n → o → o → ℂ)) :
    p'.dispatch (l * mu + c) (sigma.map fun s => (l : ℂ) • s) = (l : ℂ)⁻¹ • p.dispatch mu sigma := by
  have hmu : ((l * mu + c : ℝ) : ℂ) = (l : ℂ) * mu + c := by push_cast; rfl
  cases sigma with
  | none =>
    funext w k
    change latticeDysonG0Xk p'.ranks ((l * mu + c : ℝ) : ℂ) p'.val p'.freqs p'.lat p'.e (w, k) = _
    rw [h.ranks, h.val, h.freqs, h.lat, h.e, hmu,
      (C126_dyson h.ne (c : ℂ) p.ranks (mu : ℂ) p.val p.freqs p.lat p.e (.local 0) 0).1]
    rfl
  | some s =>
    funext w k
    change latticeDysonGXk p'.ranks ((l * mu + c : ℝ) : ℂ) p'.val p'.freqs p'.lat p'.e
      (.lattice fun w k => Matrix.of (((l : ℂ) • s) w k)) 0 (w, k) = _
    have h1 := (C126_dyson h.ne (c : ℂ) p.ranks (mu : ℂ) p.val p.freqs p.lat p.e
      (.lattice fun w k => Matrix.of (s w k)) 0).2.2.1
    rw [mul_zero] at h1
    rw [h.ranks, h.val, h.freqs, h.lat, h.e, hmu]
    exact congrFun h1 (w, k)

theorem dyson_units (h : SameGw l c p p') (mu : ℝ) (sigma : Option (ℤ → Lat n → o → o → ℂ)) :
    p'.dyson (l * mu + c) (sigma.map fun s => (l : ℂ) • s)
      = (p.dyson mu sigma).map fun x => ((l : ℂ)⁻¹ • x.1, l * x.2 + c) := by
  have ht : p'.target (sigma.map fun s => (l : ℂ) • s) = fun x => p.target sigma ((x - c) / l) := by
    funext x
    unfold SolverParams.target
    have hx : x = l * ((x - c) / l) + c := by have := h.pos; field_simp; ring
    conv_lhs => rw [hx]
    rw [dispatch_units h, rhoR_units h, h.nFix]
  unfold SolverParams.dyson
  rw [h.nFix]
  split_ifs
  · rw [dispatch_units h]
    rfl
  · rw [ht, h.bracket, h.brentq]
    cases p.brentq (p.target sigma) p.bracket.1 p.bracket.2 with
    | error e => rfl
    | ok mu' =>
      change Except.ok _ = Except.ok _
      rw [dispatch_units h]

/-- the results of one pass in the other description -/
def unitSweep (l c : ℝ) (s : Sweep n o) : Sweep n o where
  g := (l : ℂ)⁻¹ • s.g
  mu := l * s.mu + c
  sigma := (l : ℂ) • s.sigma
  hartree := (l : ℂ) • s.hartree
  fock := (l : ℂ) • s.fock
  dyn := (l : ℂ) • s.dyn
  P := (l : ℂ)⁻¹ • s.P
  W := (l : ℂ) • s.W
  wDyn := (l : ℂ) • s.wDyn

/-- C126: one pass of the loop of the GW solver. -/
theorem C126_gw_sweep (h : SameGw l c p p') (f : Flags) (mu : ℝ) (g : G n o) :
    p'.sweep f (l * mu + c) ((l : ℂ)⁻¹ • g) = (p.sweep f mu g).map (unitSweep l c) := by
  unfold SolverParams.sweep
  dsimp only
  rw [hartree_units h, fock_units h, polarization_units h, screened_units h, wDyn_units h, sigmaDyn_units h]
  set sH := p.sigmaHartree g
  set sF := p.sigmaFock g
  set P := p.polarization g
  set W := p.screened f.spinless P
  set Wd := p.wDyn W
  set sD := p.sigmaDyn Wd g
  have hs : ∀ a b c : Bool,
      (if c then fun w k => (if b then fun w k => (if a then fun w k => (0 : o → o → ℂ) + ((l : ℂ) • sH) k else fun _ _ => 0) w k
          + ((l : ℂ) • sF) k else (if a then fun w k => (0 : o → o → ℂ) + ((l : ℂ) • sH) k else fun _ _ => 0)) w k + ((l : ℂ) • sD) w k
        else (if b then fun w k => (if a then fun w k => (0 : o → o → ℂ) + ((l : ℂ) • sH) k else fun _ _ => 0) w k
          + ((l : ℂ) • sF) k else (if a then fun w k => (0 : o → o → ℂ) + ((l : ℂ) • sH) k else fun _ _ => 0)) : ℤ → Lat n → o → o → ℂ)
      = (l : ℂ) • (if c then fun w k => (if b then fun w k => (if a then fun w k => (0 : o → o → ℂ) + sH k else fun _ _ => 0) w k
          + sF k else (if a then fun w k => (0 : o → o → ℂ) + sH k else fun _ _ => 0)) w k + sD w k
        else (if b then fun w k => (if a then fun w k => (0 : o → o → ℂ) + sH k else fun _ _ => 0) w k
          + sF k else (if a then fun w k => (0 : o → o → ℂ) + sH k else fun _ _ => 0)) : ℤ → Lat n → o → o → ℂ) := by
    intro a b c
    funext w k
    rw [Pi.smul_apply, Pi.smul_apply]
    cases a <;> cases b <;> cases c <;> simp [smul_add]
  rw [hs]
  set s3 := (if f.gw then fun w k => (if f.fock then fun w k => (if f.hartree then fun w k => (0 : o → o → ℂ) + sH k else fun _ _ => 0) w k
          + sF k else (if f.hartree then fun w k => (0 : o → o → ℂ) + sH k else fun _ _ => 0)) w k + sD w k
        else (if f.fock then fun w k => (if f.hartree then fun w k => (0 : o → o → ℂ) + sH k else fun _ _ => 0) w k
          + sF k else (if f.hartree then fun w k => (0 : o → o → ℂ) + sH k else fun _ _ => 0)) : ℤ → Lat n → o → o → ℂ)
  have hd := dyson_units h mu (some s3)
  rw [show (some s3).map (fun s => (l : ℂ) • s) = some ((l : ℂ) • s3) from rfl] at hd
  rw [hd]
  cases p.dyson mu (some s3) with
  | error e => rfl
  | ok x => rfl

theorem close_units (h : SameGw l c p p') (tol : ℝ) (old : Option (G n o)) (g : G n o) :
    p'.close (tol / l) (old.map fun x => (l : ℂ)⁻¹ • x) ((l : ℂ)⁻¹ • g) ↔ p.close tol old g := by
  cases old with
  | none => exact Iff.rfl
  | some x =>
    change (∀ w ∈ p'.freqs, ∀ k ∈ p'.lat, ∀ a b, ‖((l : ℂ)⁻¹ • g) w k a b - ((l : ℂ)⁻¹ • x) w k a b‖ < tol / l)
      ↔ ∀ w ∈ p.freqs, ∀ k ∈ p.lat, ∀ a b, ‖g w k a b - x w k a b‖ < tol
    rw [h.freqs, h.lat]
    have h1 : ∀ w k a b, ‖((l : ℂ)⁻¹ • g) w k a b - ((l : ℂ)⁻¹ • x) w k a b‖ < tol / l ↔ ‖g w k a b - x w k a b‖ < tol := by
      intro w k a b
      simp only [Pi.smul_apply, smul_eq_mul]
      rw [← mul_sub, norm_mul, norm_inv, Complex.norm_real, Real.norm_of_nonneg h.pos.le, ← div_eq_inv_mul,
        div_lt_div_iff_of_pos_right h.pos]
    simp only [h1]

theorem loop_units (h : SameGw l c p p') (f : Flags) (tol : ℝ) (fuel : ℕ) :
    ∀ (mu : ℝ) (g : G n o) (old : Option (G n o)) (last : Option (Sweep n o)),
      p'.loop f (tol / l) fuel (l * mu + c) ((l : ℂ)⁻¹ • g) (old.map fun x => (l : ℂ)⁻¹ • x) (last.map (unitSweep l c))
        = (p.loop f tol fuel mu g old last).map fun x => x.map (unitSweep l c) := by
  induction fuel with
  | zero => intro mu g old last; rfl
  | succ k ih =>
    intro mu g old last
    unfold SolverParams.loop
    rw [C126_gw_sweep h]
    cases p.sweep f mu g with
    | error e => rfl
    | ok s =>
      simp only [Except.map]
      rw [show (unitSweep l c s).g = (l : ℂ)⁻¹ • s.g from rfl]
      by_cases hc : p.close tol old s.g
      · rw [if_pos ((close_units h tol old s.g).2 hc), if_pos hc]
        rfl
      · rw [if_neg fun h' => hc ((close_units h tol old s.g).1 h'), if_neg hc]
        exact ih s.mu s.g (some s.g) (some s)

/-- the attributes of the solver in the other description -/
def unitState (l c : ℝ) (s : SolverState n o) : SolverState n o where
  mu := l * s.mu + c
  g := (l : ℂ)⁻¹ • s.g
  sigma := (l : ℂ) • s.sigma
  rhoK := s.rhoK
  rhoR := s.rhoR
  N := s.N
  sigmaHartree := s.sigmaHartree.map fun x => (l : ℂ) • x
  sigmaFock := s.sigmaFock.map fun x => (l : ℂ) • x
  sigmaDyn := s.sigmaDyn.map fun x => (l : ℂ) • x
  P := s.P.map fun x => (l : ℂ)⁻¹ • x
  W := s.W.map fun x => (l : ℂ) • x
  wDyn := s.wDyn.map fun x => (l : ℂ) • x
  chi := s.chi.map fun x => (l : ℂ)⁻¹ • x

theorem finish_units (h : SameGw l c p p') (f : Flags) (s : SolverState n o) (last : Option (Sweep n o)) :
    p'.finish f (unitState l c s) (last.map (unitSweep l c)) = (p.finish f s last).map (unitState l c) := by
  cases last with
  | none =>
    change (if f.gw then Except.error "UnboundLocalError" else Except.ok { unitState l c s with
        sigma := 0
        rhoK := some (p'.rhoK ((l : ℂ)⁻¹ • s.g)), rhoR := some (p'.rhoR ((l : ℂ)⁻¹ • s.g)),
        N := some (totalDensity (p'.rhoR ((l : ℂ)⁻¹ • s.g))) }) = _
    rw [rhoK_units h, rhoR_units h]
    change _ = Except.map (unitState l c) (if f.gw then Except.error "UnboundLocalError" else Except.ok { s with
        sigma := 0
        rhoK := some (p.rhoK s.g), rhoR := some (p.rhoR s.g), N := some (totalDensity (p.rhoR s.g)) })
    split_ifs
    · rfl
    · change Except.ok _ = Except.ok _
      refine congrArg Except.ok ?_
      simp only [unitState, smul_zero]
  | some t =>
    change Except.ok _ = Except.ok _
    refine congrArg Except.ok ?_
    simp only [unitState, unitSweep, rhoK_units h, rhoR_units h, susceptibility_units h]
    congr 1 <;> split_ifs <;> rfl

/-- C126: `solve_iter` of the GW solver, started from the corresponding state, takes the same number of iterations and ends in
the corresponding state, if the tolerance for the Green's function is given in the unit. -/
theorem C126_gw_partial (h : SameGw l c p p') (f : Flags) (tol : ℝ) (maxiter : ℕ) (s : SolverState n o) :
    p'.solveIter f (tol / l) maxiter (unitState l c s) = (p.solveIter f tol maxiter s).map (unitState l c) := by
  unfold SolverParams.solveIter
  have hl := loop_units h f tol maxiter s.mu s.g none none
  rw [show p'.loop f (tol / l) maxiter (unitState l c s).mu (unitState l c s).g none none
    = (p.loop f tol maxiter s.mu s.g none none).map fun x => x.map (unitSweep l c) from hl]
  cases p.loop f tol maxiter s.mu s.g none none with
  | error e => rfl
  | ok last => exact finish_units h f s last

/-- C126: the constructor: a given chemical potential is needed, since the default is the number zero. -/
theorem C126_gw_init (h : SameGw l c p p') (mu : ℝ) (g : Option (G n o)) :
    p'.init (some (l * mu + c)) (g.map fun x => (l : ℂ)⁻¹ • x) = (p.init (some mu) g).map (unitState l c) := by
  unfold SolverParams.init
  have hd := dyson_units h mu none
  dsimp only [Option.getD]
  rw [show (none : Option (ℤ → Lat n → o → o → ℂ)) = (none : Option (ℤ → Lat n → o → o → ℂ)).map fun s => (l : ℂ) • s from rfl, hd]
  change _ = Except.map _ (match p.dyson mu none with | .error err => _ | .ok (g0, mu0) => _)
  cases p.dyson mu none with
  | error e => rfl
  | ok x =>
    cases g with
    | none =>
      change Except.ok _ = Except.ok _
      simp only [unitState, smul_zero, Option.map_none]
    | some y =>
      change Except.ok _ = Except.ok _
      simp only [unitState, smul_zero, Option.map_none]

end Gw

/-! ## One shot GW on the real axis -/

section G0w

open Verif.Lindhard

variable {d : ℕ} {n : Fin d → ℕ} [∀ i, NeZero (n i)] {o : Type*} [Fintype o] [DecidableEq o]
  {K : Type*} [AddCommGroup K] {l : ℝ}

/-- C126: the static and the dynamic part of the one shot GW self energy are multiplied with the unit: frequency mesh,
broadening and interactions in the other unit, dispersion and chemical potential also with the other zero. -/
theorem C126_g0w (hl : 0 < l) (c : ℝ) (eig eig' : Eig o) (hs : EigSpec eig) (hs' : EigSpec eig') (mu beta : ℝ)
    (ek : K → Matrix o o ℂ) (he : ∀ k, (ek k).IsHermitian) (pt : Lat n → K) {kmesh : List (Lat n)} (hc : Complete kmesh)
    (fmesh : List ℝ) (step : ℝ) (W : ℝ → Lat n → Bubble.T4 o) (v : Lat n → Bubble.T4 o) (z : ℂ) (kp : K) :
    g0wStatic eig' (l * mu + c) (beta / l) (affine (l : ℂ) (c : ℂ) ek) pt kmesh ((l : ℂ) • v) kp
        = (l : ℂ) • g0wStatic eig mu beta ek pt kmesh v kp ∧
      g0wDynamicAt eig' (l * mu + c) (beta / l) (affine (l : ℂ) (c : ℂ) ek) pt kmesh (fmesh.map fun f => l * f) (l * step)
          (fun f => (l : ℂ) • W (f / l)) ((l : ℂ) • v) (l * z) kp
        = (l : ℂ) • g0wDynamicAt eig mu beta ek pt kmesh fmesh step W v z kp := by
  have hl' : (l : ℂ) ≠ 0 := Complex.ofReal_ne_zero.2 hl.ne'
  have hf : ∀ (k : K) (f : ℝ → ℂ), matFun (sysAt eig' (l * mu + c) (affine (l : ℂ) (c : ℂ) ek) k) f
      = matFun (sysAt eig mu ek k) fun x => f (l * x) := by
    intro k f
    have h1 := sysAt_diag hs' (l * mu + c) (ek := affine (l : ℂ) (c : ℂ) ek) (fun k => affine_herm (he k) l c) k
    rw [show affine (l : ℂ) (c : ℂ) ek k - ((l * mu + c : ℝ) : ℂ) • (1 : Matrix o o ℂ) = (l : ℂ) • (ek k - (mu : ℂ) • 1) from
      affine_sub l c mu (ek k)] at h1
    rw [matFun_unique h1 (diag_smul (sysAt_diag hs mu he k) l)]
    rfl
  have hx : ∀ x : ℝ, l * x * (beta / l) = x * beta := by intro x; field_simp
  constructor
  · funext a b
    rw [Pi.smul_apply, Pi.smul_apply, g0wStatic_eq _ _ _ _ _ hc, g0wStatic_eq _ _ _ _ _ hc]
    simp only [hf, hx, Pi.smul_apply, smul_eq_mul, mul_neg, Finset.mul_sum]
    congr 1
    refine Finset.sum_congr rfl fun q _ => ?_
    ring
  · funext a b
    rw [Pi.smul_apply, Pi.smul_apply, g0wDynamicAt_eq _ _ _ _ _ hc, g0wDynamicAt_eq _ _ _ _ _ hc]
    have hw : ∀ (fp : ℝ) (q : Lat n), wSpec (fun f => (l : ℂ) • W (f / l)) ((l : ℂ) • v) (l * fp) q a b
        = l * wSpec W v fp q a b := by
      intro fp q
      unfold wSpec
      simp only [Pi.smul_apply, smul_eq_mul]
      rw [mul_div_cancel_left₀ _ hl.ne', ← mul_sub, Complex.im_ofReal_mul]
      ring
    have hm : ∀ (fp : ℝ) (q : Lat n), matFun (sysAt eig mu ek (pt q + kp)) (fun x =>
          ((bose (l * fp * (beta / l)) + fermi (l * x * (beta / l)) : ℝ) : ℂ) / (l * z + ((l * fp : ℝ) : ℂ) - ((l * x : ℝ) : ℂ))) a b
        = (l : ℂ)⁻¹ * matFun (sysAt eig mu ek (pt q + kp)) (fun x =>
          ((bose (fp * beta) + fermi (x * beta) : ℝ) : ℂ) / (z + fp - x)) a b := by
      intro fp q
      rw [matFun_apply, matFun_apply, Finset.mul_sum]
      refine Finset.sum_congr rfl fun i _ => ?_
      rw [hx, hx]
      have : (l : ℂ) * z + ((l * fp : ℝ) : ℂ) - ((l * (sysAt eig mu ek (pt q + kp)).1 i : ℝ) : ℂ)
          = l * (z + fp - (sysAt eig mu ek (pt q + kp)).1 i) := by push_cast; ring
      rw [this, div_mul_eq_div_div_swap, div_eq_mul_inv _ (l : ℂ)]
      ring
    simp only [hf, List.map_map, Function.comp_def, hw, hm]
    have hsum : ∀ q : Lat n, (fmesh.map fun fp => ((l * wSpec W v fp q a b : ℝ) : ℂ) * ((l : ℂ)⁻¹ *
          matFun (sysAt eig mu ek (pt q + kp)) (fun x => ((bose (fp * beta) + fermi (x * beta) : ℝ) : ℂ) / (z + fp - x)) a b))
        = fmesh.map fun fp => (wSpec W v fp q a b : ℂ) *
          matFun (sysAt eig mu ek (pt q + kp)) (fun x => ((bose (fp * beta) + fermi (x * beta) : ℝ) : ℂ) / (z + fp - x)) a b := by
      intro q
      refine List.map_congr_left fun fp _ => ?_
      push_cast
      field_simp
    simp only [hsum]
    push_cast
    rw [smul_eq_mul]
    ring

end G0w

end Verif.Units
