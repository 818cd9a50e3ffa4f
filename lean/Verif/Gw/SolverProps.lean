import Verif.Gw.Solver
import Verif.Gw.Props
import Verif.Dyson.Props
import Verif.Rpa.Props
import Verif.Bubble.Props

/-!
# C87: what the self consistent GW solver reports
-/

set_option linter.unusedSectionVars false

noncomputable section

namespace Verif.Gw

open Complex Verif.Parallel Verif.Fourier Verif.Bubble Verif.Dyson Verif.Rpa

variable {d : ℕ} {n : Fin d → ℕ} [∀ i, NeZero (n i)] {o : Type} [Fintype o] [DecidableEq o]

/-! ## Specification -/

/-- meshes without repeated points, all momenta, at least one rank -/
structure GoodMeshes (p : SolverParams n o) : Prop where
  ranks : 0 < p.ranks
  lat : Complete p.lat
  freqs : p.freqs.Nodup
  bfreqs : p.bfreqs.Nodup

/-- density matrix `<c†_i c_j>` at a momentum -/
def rhoSpec (p : SolverParams n o) (g : G n o) (k : Lat n) (i j : o) : ℂ := p.pieces.dens fun w => g w k j i

/-- Hartree potential: interaction at zero momentum and density matrix averaged over the zone -/
def hartreeSpec (p : SolverParams n o) (g : G n o) (a b : o) : ℂ :=
  ∑ c, ∑ d, p.V 0 a b c d * ((Fintype.card (Lat n) : ℂ)⁻¹ * ∑ q, rhoSpec p g q c d)

/-- Fock potential: convolution of interaction and density matrix -/
def fockSpec (p : SolverParams n o) (g : G n o) (k : Lat n) (a b : o) : ℂ :=
  -((Fintype.card (Lat n) : ℂ)⁻¹ * ∑ q, ∑ c, ∑ d, p.V q a c d b * rhoSpec p g (k - q) d c)

/-- Green's function in imaginary time and real space -/
def gTimeSpace (p : SolverParams n o) (g : G n o) (t : ℕ) (r : Lat n) (a b : o) : ℂ :=
  p.pieces.gToTau (fun w => kToR (fun k => g w k a b) r) t

/-- polarisation: transform of `-G_da(τ, r) G_bc(β - τ, -r)` for more than one bosonic frequency -/
def polSpec (p : SolverParams n o) (g : G n o) (w : ℤ) (k : Lat n) (a b c d : o) : ℂ :=
  -rToK (fun r => p.boseFreq (fun t => gTimeSpace p g t r d a * gTimeSpace p g (p.L - t) (-r) b c) w) k

/-- frequency dependent self energy of an interaction `W` from which the bare one is taken off -/
def dynSpec (p : SolverParams n o) (W : ℤ × Lat n → Bubble.T4 o) (g : G n o) (w : ℤ) (k : Lat n) (a b : o) : ℂ :=
  rToK (fun r => p.pieces.toFreq (fun t => if t ≤ p.L then -∑ c, ∑ d,
    p.pieces.wToTau (fun v => kToR (fun q => if v ∈ p.bfreqs then W (v, q) a c d b - p.V q a c d b else 0) r) t
      * gTimeSpace p g t r c d else 0) w) k

/-- One iteration done right: from `(mu, g)` to the values in `t`. -/
structure StepSpec (p : SolverParams n o) (f : Flags) (mu : ℝ) (g : G n o) (t : Sweep n o) : Prop where
  /-- the self energy is the sum of the enabled parts, all from the old Green's function -/
  sigma : ∀ w k a b, t.sigma w k a b = (if f.hartree then hartreeSpec p g a b else 0)
    + (if f.fock then fockSpec p g k a b else 0) + (if f.gw then dynSpec p t.W g w k a b else 0)
  /-- the parts themselves -/
  hartree : ∀ k a b, t.hartree k a b = hartreeSpec p g a b
  fock : ∀ k a b, t.fock k a b = fockSpec p g k a b
  dyn : ∀ w k a b, t.dyn w k a b = dynSpec p t.W g w k a b
  /-- polarisation from the old Green's function -/
  pol : p.nw ≠ 1 → ∀ w k a b c d, t.P w k a b c d = polSpec p g w k a b c d
  /-- the interaction is screened by the polarisation, twice for a spinless calculation -/
  screened : ∀ w ∈ p.bfreqs, ∀ k, let Pi := (if f.spinless then (2 : ℂ) else 1) • t.P w k
    IsUnit (1 - pairMat Pi * pairMat (p.V k)).det → UnswappedW Pi (p.V k) (t.W (w, k))
  /-- without the bare interaction -/
  wDyn : ∀ w ∈ p.bfreqs, ∀ k a b c d, t.wDyn (w, k) a b c d = t.W (w, k) a b c d - p.V k a b c d
  /-- the new Green's function solves the Dyson equation with the new self energy and chemical potential -/
  dyson : ∀ w ∈ p.freqs, ∀ k,
    IsUnit ((p.val w + (t.mu : ℂ)) • (1 : Matrix o o ℂ) - p.e k - Matrix.of (t.sigma w k)).det →
      SolvesDyson (p.val w) (t.mu : ℂ) (p.e k) (Matrix.of (t.sigma w k)) (Matrix.of (t.g w k))
  /-- the chemical potential stays unless the density is fixed -/
  mu : p.nFix = 0 → t.mu = mu

/-! ## The steps meet the specification -/

variable {p : SolverParams n o}

theorem rhoK_eq (hm : GoodMeshes p) (g : G n o) : p.rhoK g = rhoSpec p g := by
  unfold SolverParams.rhoK Gw.rhoK
  rw [hm.lat.assign hm.ranks]
  rfl

theorem sigmaHartree_eq (hm : GoodMeshes p) (g : G n o) (k : Lat n) (a b : o) :
    p.sigmaHartree g k a b = hartreeSpec p g a b := by
  unfold SolverParams.sigmaHartree SolverParams.rhoR
  rw [rhoK_eq hm, C64_real_space]
  rfl

theorem sigmaFock_eq (hm : GoodMeshes p) (g : G n o) (k : Lat n) (a b : o) :
    p.sigmaFock g k a b = fockSpec p g k a b := by
  unfold SolverParams.sigmaFock SolverParams.rhoR
  rw [rhoK_eq hm, fockR_eq hm.ranks hm.lat]
  rfl

theorem gTr_eq (g : G n o) : p.gTr g = gTimeSpace p g := by
  funext t r a b
  unfold SolverParams.gTr gTimeSpace
  simp only [kToR_apply2]

theorem rToK_apply4 (f : Lat n → Bubble.T4 o) (k : Lat n) (a b c d : o) :
    rToK f k a b c d = rToK (fun r => f r a b c d) k := by
  simp only [rToK, fftw, Finset.sum_apply, Pi.smul_apply]

theorem polarization_eq (hm : GoodMeshes p) (hnw : p.nw ≠ 1) (g : G n o) (w : ℤ) (k : Lat n) (a b c d : o) :
    p.polarization g w k a b c d = polSpec p g w k a b c d := by
  unfold SolverParams.polarization SolverParams.chi0 polSpec
  rw [if_neg hnw]
  simp only [Pi.neg_apply]
  rw [rToK_apply4, chi0tr, hm.lat.assign hm.ranks, gTr_eq]
  rfl

theorem wDyn_fold (V : Lat n → Bubble.T4 o) (l : List ℤ) (hl : l.Nodup) (W : ℤ × Lat n → Bubble.T4 o)
    (x : ℤ × Lat n) : l.foldl (fun acc w => fun x : ℤ × Lat n => if x.1 = w then acc x - V x.2 else acc x) W x
      = if x.1 ∈ l then W x - V x.2 else W x := by
  induction l generalizing W with
  | nil => simp
  | cons v l ih =>
    rw [List.foldl_cons, ih (List.nodup_cons.1 hl).2]
    have hv := (List.nodup_cons.1 hl).1
    by_cases h : x.1 = v
    · have : x.1 ∉ l := h ▸ hv
      simp [h, hv]
    · simp [h, List.mem_cons]

theorem wDyn_eq (hm : GoodMeshes p) (W : ℤ × Lat n → Bubble.T4 o) (w : ℤ) (k : Lat n) :
    p.wDyn W (w, k) = if w ∈ p.bfreqs then W (w, k) - p.V k else W (w, k) := by
  unfold SolverParams.wDyn
  rw [wDyn_fold _ _ hm.bfreqs]

theorem screened_eq (hm : GoodMeshes p) (s : Bool) (P : ℤ → Lat n → Bubble.T4 o) (w : ℤ) (k : Lat n) :
    p.screened s P (w, k) = if w ∈ p.bfreqs then
      screenedOptPoint ((if s then (2 : ℂ) else 1) • P w k) (p.V k) else 0 := by
  unfold SolverParams.screened
  dsimp only
  rw [C02_distributedAssign _ hm.ranks _ (prodMesh_nodup hm.bfreqs hm.lat.1)]
  simp only [mem_prodMesh, hm.lat.2 k, and_true]
  cases s <;> simp

theorem screened_solves (hm : GoodMeshes p) (s : Bool) (P : ℤ → Lat n → Bubble.T4 o) (w : ℤ) (hw : w ∈ p.bfreqs)
    (k : Lat n) (hdet : IsUnit (1 - pairMat ((if s then (2 : ℂ) else 1) • P w k) * pairMat (p.V k)).det) :
    UnswappedW ((if s then (2 : ℂ) else 1) • P w k) (p.V k) (p.screened s P (w, k)) := by
  rw [screened_eq hm, if_pos hw, C17_paths_agree, unswappedW_iff, unswappedRpa_iff, screenedBubble_push _ _ hdet]
  apply rpa_eq_of_unit
  rwa [isUnit_det_comm]

theorem sigmaDyn_eq (hm : GoodMeshes p) (s : Bool) (P : ℤ → Lat n → Bubble.T4 o) (g : G n o) (w : ℤ) (k : Lat n)
    (a b : o) : p.sigmaDyn (p.wDyn (p.screened s P)) g w k a b = dynSpec p (p.screened s P) g w k a b := by
  unfold SolverParams.sigmaDyn dynSpec
  dsimp only
  rw [rToK_apply2]
  congr 1
  funext r
  congr 1
  funext t
  have hnd : ((List.range (p.L + 1)).product p.lat).Nodup := List.Nodup.product List.nodup_range hm.lat.1
  rw [C02_distributedAssign _ hm.ranks _ hnd]
  have hmem : (t, r) ∈ (List.range (p.L + 1)).product p.lat ↔ t ≤ p.L := by
    rw [List.pair_mem_product, List.mem_range]
    simp [hm.lat.2 r]
  simp only [hmem]
  split_ifs
  · rw [gwPoint, ← Finset.sum_neg_distrib]
    refine Finset.sum_congr rfl fun c _ => ?_
    rw [← Finset.sum_neg_distrib]
    refine Finset.sum_congr rfl fun e _ => ?_
    rw [neg_mul, gTr_eq]
    congr 3
    funext v
    rw [kToR_apply4]
    congr 1
    funext q
    rw [wDyn_eq hm]
    split_ifs with hv
    · rfl
    · rw [screened_eq hm, if_neg hv]; rfl
  · rfl

theorem dispatch_some (hm : GoodMeshes p) (mu : ℝ) (s : ℤ → Lat n → o → o → ℂ) (w : ℤ) (hw : w ∈ p.freqs)
    (k : Lat n) : Matrix.of (p.dispatch mu (some s) w k)
      = ((p.val w + 0 + (mu : ℂ)) • (1 : Matrix o o ℂ) - p.e k - Matrix.of (s w k))⁻¹ := by
  have h := C02_distributedAssign p.ranks hm.ranks _ (prodMesh_nodup hm.freqs hm.lat.1)
    (fun x : ℤ × Lat n => ((p.val x.1 + 0 + (mu : ℂ)) • (1 : Matrix o o ℂ) - p.e x.2 - Matrix.of (s x.1 x.2))⁻¹) (w, k)
  rw [if_pos (mem_prodMesh.2 ⟨hw, hm.lat.2 k⟩)] at h
  exact h

theorem dispatch_none (hm : GoodMeshes p) (mu : ℝ) (w : ℤ) (hw : w ∈ p.freqs) (k : Lat n) :
    Matrix.of (p.dispatch mu none w k) = ((p.val w + (mu : ℂ)) • (1 : Matrix o o ℂ) - p.e k)⁻¹ := by
  have h := C02_distributedAssign p.ranks hm.ranks _ (prodMesh_nodup hm.freqs hm.lat.1)
    (fun x : ℤ × Lat n => ((p.val x.1 + (mu : ℂ)) • (1 : Matrix o o ℂ) - p.e x.2)⁻¹) (w, k)
  rw [if_pos (mem_prodMesh.2 ⟨hw, hm.lat.2 k⟩)] at h
  exact h

theorem dispatch_solves (hm : GoodMeshes p) (mu : ℝ) (s : ℤ → Lat n → o → o → ℂ) (w : ℤ) (hw : w ∈ p.freqs)
    (k : Lat n) (hdet : IsUnit ((p.val w + (mu : ℂ)) • (1 : Matrix o o ℂ) - p.e k - Matrix.of (s w k)).det) :
    SolvesDyson (p.val w) (mu : ℂ) (p.e k) (Matrix.of (s w k)) (Matrix.of (p.dispatch mu (some s) w k)) := by
  rw [dispatch_some hm mu s w hw k, add_zero]
  exact ⟨Matrix.mul_nonsing_inv _ hdet, Matrix.nonsing_inv_mul _ hdet⟩

theorem dyson_ok (mu : ℝ) (sig : Option (ℤ → Lat n → o → o → ℂ)) (g' : G n o) (mu' : ℝ)
    (h : p.dyson mu sig = .ok (g', mu')) : g' = p.dispatch mu' sig ∧ (p.nFix = 0 → mu' = mu) ∧
      (p.nFix ≠ 0 → p.brentq (p.target sig) p.bracket.1 p.bracket.2 = .ok mu') := by
  unfold SolverParams.dyson at h
  by_cases h0 : p.nFix = 0
  · rw [if_pos h0] at h
    have := Except.ok.inj h
    rw [Prod.mk.injEq] at this
    obtain ⟨h1, h2⟩ := this
    exact ⟨by rw [← h1, h2], fun _ => h2.symm, fun hn => absurd h0 hn⟩
  · rw [if_neg h0] at h
    cases hb : p.brentq (p.target sig) p.bracket.1 p.bracket.2 with
    | error err => rw [hb] at h; cases h
    | ok m =>
      rw [hb] at h
      have := Except.ok.inj h
      rw [Prod.mk.injEq] at this
      obtain ⟨h1, h2⟩ := this
      exact ⟨by rw [← h1, h2], fun hn => absurd hn h0, fun _ => by rw [h2]⟩

/-- self energy of one pass in the words of the code -/
theorem sweep_ok (f : Flags) (mu : ℝ) (g : G n o) (t : Sweep n o) (h : p.sweep f mu g = .ok t) :
    t.hartree = p.sigmaHartree g ∧ t.fock = p.sigmaFock g ∧ t.P = p.polarization g ∧
    t.W = p.screened f.spinless t.P ∧ t.wDyn = p.wDyn t.W ∧ t.dyn = p.sigmaDyn t.wDyn g ∧
    (∀ w k, t.sigma w k = (if f.hartree then t.hartree k else 0) + (if f.fock then t.fock k else 0)
      + (if f.gw then t.dyn w k else 0)) ∧ p.dyson mu (some t.sigma) = .ok (t.g, t.mu) := by
  unfold SolverParams.sweep at h
  dsimp only at h
  split at h
  · cases h
  · rename_i g' mu' hd
    obtain rfl := Except.ok.inj h
    refine ⟨rfl, rfl, rfl, rfl, rfl, rfl, fun w k => ?_, hd⟩
    dsimp only
    rcases f with ⟨fh, ff, fg, fs⟩
    cases fh <;> cases ff <;> cases fg <;> simp

theorem sweep_spec (hm : GoodMeshes p) (f : Flags) (mu : ℝ) (g : G n o) (t : Sweep n o)
    (h : p.sweep f mu g = .ok t) : StepSpec p f mu g t := by
  obtain ⟨h1, h2, h3, h4, h5, h6, h7, h8⟩ := sweep_ok f mu g t h
  obtain ⟨hg, hmu, -⟩ := dyson_ok _ _ _ _ h8
  have hH : ∀ k a b, t.hartree k a b = hartreeSpec p g a b := fun k a b => by rw [h1, sigmaHartree_eq hm]
  have hF : ∀ k a b, t.fock k a b = fockSpec p g k a b := fun k a b => by rw [h2, sigmaFock_eq hm]
  have hD : ∀ w k a b, t.dyn w k a b = dynSpec p t.W g w k a b := fun w k a b => by
    rw [h6, h5, h4, sigmaDyn_eq hm]
  refine ⟨fun w k a b => ?_, hH, hF, hD, fun hnw w k a b c d => by rw [h3, polarization_eq hm hnw],
    fun w hw k hdet => ?_, fun w hw k a b c d => ?_, fun w hw k hdet => ?_, hmu⟩
  · rw [h7]
    simp only [Pi.add_apply]
    congr 1
    · congr 1
      · split_ifs
        · exact hH k a b
        · rfl
      · split_ifs
        · exact hF k a b
        · rfl
    · split_ifs
      · exact hD w k a b
      · rfl
  · rw [h4]
    exact screened_solves hm _ _ w hw k hdet
  · rw [h5, wDyn_eq hm, if_pos hw]
    rfl
  · rw [hg]
    exact dispatch_solves hm _ _ w hw k hdet

/-! ## The loop -/

/-- the Green's function with which the one of iteration `i` is compared -/
def prevG (old : Option (G n o)) (steps : ℕ → Sweep n o) : ℕ → Option (G n o)
  | 0 => old
  | i + 1 => some (steps i).g

theorem loop_trace (f : Flags) (tol : ℝ) (fuel : ℕ) (mu : ℝ) (g : G n o) (old : Option (G n o))
    (last r : Option (Sweep n o)) (h : p.loop f tol (fuel + 1) mu g old last = .ok r) :
    ∃ (m : ℕ) (steps : ℕ → Sweep n o), m ≤ fuel ∧ p.sweep f mu g = .ok (steps 0) ∧
      (∀ i < m, p.sweep f (steps i).mu (steps i).g = .ok (steps (i + 1))) ∧ r = some (steps m) ∧
      (m < fuel → p.close tol (prevG old steps m) (steps m).g) ∧
      ∀ i < m, ¬ p.close tol (prevG old steps i) (steps i).g := by
  induction fuel generalizing mu g old last with
  | zero =>
    rw [SolverParams.loop] at h
    cases hs : p.sweep f mu g with
    | error err => rw [hs] at h; cases h
    | ok t =>
      rw [hs] at h
      dsimp only at h
      refine ⟨0, fun _ => t, le_refl _, rfl, fun i hi => absurd hi (Nat.not_lt_zero _), ?_,
        fun hlt => absurd hlt (lt_irrefl _), fun i hi => absurd hi (Nat.not_lt_zero _)⟩
      split_ifs at h
      · exact (Except.ok.inj h).symm
      · rw [SolverParams.loop] at h
        exact (Except.ok.inj h).symm
  | succ fuel ih =>
    rw [SolverParams.loop] at h
    cases hs : p.sweep f mu g with
    | error err => rw [hs] at h; cases h
    | ok t =>
      rw [hs] at h
      dsimp only at h
      by_cases hc : p.close tol old t.g
      · rw [if_pos hc] at h
        exact ⟨0, fun _ => t, Nat.zero_le _, rfl, fun i hi => absurd hi (Nat.not_lt_zero _),
          (Except.ok.inj h).symm, fun _ => hc, fun i hi => absurd hi (Nat.not_lt_zero _)⟩
      · rw [if_neg hc] at h
        obtain ⟨m, steps, hm, h0, hs', hr, hcl, hnc⟩ := ih _ _ _ _ h
        refine ⟨m + 1, fun i => Nat.casesOn i t steps, by omega, rfl, ?_, hr, ?_, ?_⟩
        · intro i hi
          cases i with
          | zero => exact h0
          | succ i => exact hs' i (by omega)
        · intro hlt
          have := hcl (by omega)
          cases m with
          | zero => exact this
          | succ m => exact this
        · intro i hi
          cases i with
          | zero => exact hc
          | succ i =>
            have := hnc i (by omega)
            cases i with
            | zero => exact this
            | succ i => exact this

/-! ## C87 -/

/-- C87 (run): after `solve_iter` with at least one iteration the reported quantities are those of the last of `m + 1`
correct iterations that start from the Green's function and chemical potential held before; if fewer than `maxiter`
were done, at least two were, and the last two Green's functions differ by less than `tol` everywhere. -/
theorem C87_run (hm : GoodMeshes p) (f : Flags) (tol : ℝ) (maxiter : ℕ) (h1 : 1 ≤ maxiter)
    (s s' : SolverState n o) (h : p.solveIter f tol maxiter s = .ok s') :
    ∃ (m : ℕ) (steps : ℕ → Sweep n o), m + 1 ≤ maxiter ∧ StepSpec p f s.mu s.g (steps 0) ∧
      (∀ i < m, StepSpec p f (steps i).mu (steps i).g (steps (i + 1))) ∧
      s'.g = (steps m).g ∧ s'.mu = (steps m).mu ∧ s'.sigma = (steps m).sigma ∧
      (f.gw → s'.P = some (steps m).P ∧ s'.W = some (steps m).W ∧ s'.wDyn = some (steps m).wDyn ∧
        s'.sigmaDyn = some (steps m).dyn) ∧
      (f.hartree → s'.sigmaHartree = some (steps m).hartree) ∧ (f.fock → s'.sigmaFock = some (steps m).fock) ∧
      (m + 1 < maxiter → 1 ≤ m ∧ ∀ w ∈ p.freqs, ∀ k a b,
        ‖(steps m).g w k a b - (steps (m - 1)).g w k a b‖ < tol) := by
  obtain ⟨fuel, rfl⟩ : ∃ fuel, maxiter = fuel + 1 := ⟨maxiter - 1, by omega⟩
  unfold SolverParams.solveIter at h
  cases hl : p.loop f tol (fuel + 1) s.mu s.g none none with
  | error err => rw [hl] at h; cases h
  | ok r =>
    rw [hl] at h
    dsimp only at h
    obtain ⟨m, steps, hmf, h0, hs, rfl, hcl, -⟩ := loop_trace f tol fuel _ _ _ _ r hl
    unfold SolverParams.finish at h
    obtain rfl := (Except.ok.inj h).symm
    refine ⟨m, steps, by omega, sweep_spec hm _ _ _ _ h0, fun i hi => sweep_spec hm _ _ _ _ (hs i hi), rfl, rfl, rfl,
      fun hg => ?_, fun hh => ?_, fun hf => ?_, fun hlt => ?_⟩
    · simp [hg]
    · simp [hh]
    · simp [hf]
    · have := hcl (by omega)
      cases m with
      | zero => exact absurd this id
      | succ m => exact ⟨by omega, fun w hw k a b => this w hw k (hm.lat.2 k) a b⟩

/-- C87 (Dyson): the reported Green's function, self energy and chemical potential satisfy the Dyson equation. -/
theorem C87_dyson (hm : GoodMeshes p) (f : Flags) (tol : ℝ) (maxiter : ℕ) (h1 : 1 ≤ maxiter)
    (s s' : SolverState n o) (h : p.solveIter f tol maxiter s = .ok s') (w : ℤ) (hw : w ∈ p.freqs) (k : Lat n)
    (hdet : IsUnit ((p.val w + (s'.mu : ℂ)) • (1 : Matrix o o ℂ) - p.e k - Matrix.of (s'.sigma w k)).det) :
    SolvesDyson (p.val w) (s'.mu : ℂ) (p.e k) (Matrix.of (s'.sigma w k)) (Matrix.of (s'.g w k)) := by
  obtain ⟨m, steps, -, h0, hs, hg, hmu, hsig, -⟩ := C87_run hm f tol maxiter h1 s s' h
  rw [hmu, hsig] at hdet
  rw [hg, hmu, hsig]
  cases m with
  | zero => exact h0.dyson w hw k hdet
  | succ m => exact (hs m (by omega)).dyson w hw k hdet

/-- C87 (density): the reported density matrix and particle number are those of the reported Green's function; the
number is the average over the zone of the trace of the density matrix. -/
theorem C87_density (hm : GoodMeshes p) (f : Flags) (tol : ℝ) (maxiter : ℕ)
    (s s' : SolverState n o) (h : p.solveIter f tol maxiter s = .ok s') :
    s'.rhoK = some (rhoSpec p s'.g) ∧ s'.rhoR = some (kToR (rhoSpec p s'.g)) ∧
      s'.N = some ((Fintype.card (Lat n) : ℝ)⁻¹ * ∑ k, ∑ a, (rhoSpec p s'.g k a a).re) := by
  have hN : ∀ g : G n o, totalDensity (p.rhoR g)
      = (Fintype.card (Lat n) : ℝ)⁻¹ * ∑ k, ∑ a, (rhoSpec p g k a a).re := by
    intro g
    unfold totalDensity SolverParams.rhoR
    rw [rhoK_eq hm, Finset.sum_comm, Finset.mul_sum]
    refine Finset.sum_congr rfl fun a _ => ?_
    rw [kToR_apply2, (C06_normalisation _).1, smul_eq_mul, ← Complex.ofReal_natCast, ← Complex.ofReal_inv,
      Complex.re_ofReal_mul, Complex.re_sum]
  have hR : ∀ g : G n o, p.rhoR g = kToR (rhoSpec p g) := fun g => by
    unfold SolverParams.rhoR; rw [rhoK_eq hm]
  unfold SolverParams.solveIter at h
  cases hl : p.loop f tol maxiter s.mu s.g none none with
  | error err => rw [hl] at h; cases h
  | ok r =>
    rw [hl] at h
    dsimp only at h
    unfold SolverParams.finish at h
    cases r with
    | none =>
      dsimp only at h
      split_ifs at h
      obtain rfl := (Except.ok.inj h).symm
      exact ⟨by rw [rhoK_eq hm], by rw [hR], by rw [hN]⟩
    | some t =>
      obtain rfl := (Except.ok.inj h).symm
      exact ⟨by rw [rhoK_eq hm], by rw [hR], by rw [hN]⟩

/-- C87 (susceptibility): in a calculation with spin the reported susceptibility solves `χ = P + P V χ` with the
reported polarisation. -/
theorem C87_susceptibility (hm : GoodMeshes p) (f : Flags) (hgw : f.gw = true) (hsp : f.spinless = false) (tol : ℝ)
    (maxiter : ℕ) (s s' : SolverState n o) (h : p.solveIter f tol maxiter s = .ok s') :
    ∃ P chi, s'.P = some P ∧ s'.chi = some chi ∧ ∀ w ∈ p.bfreqs, ∀ k,
      IsUnit (1 - pairMat (P w k) * pairMat (p.V k)).det → UnswappedRpa (P w k) (p.V k) (chi (w, k)) := by
  unfold SolverParams.solveIter at h
  cases hl : p.loop f tol maxiter s.mu s.g none none with
  | error err => rw [hl] at h; cases h
  | ok r =>
    rw [hl] at h
    dsimp only at h
    unfold SolverParams.finish at h
    cases maxiter with
    | zero =>
      rw [SolverParams.loop] at hl
      obtain rfl := (Except.ok.inj hl).symm
      simp [hgw] at h
    | succ fuel =>
      obtain ⟨m, steps, -, h0, hs, rfl, -, -⟩ := loop_trace f tol fuel _ _ _ _ r hl
      obtain rfl := (Except.ok.inj h).symm
      simp only [hgw, if_true]
      refine ⟨_, _, rfl, rfl, fun w hw k hdet => ?_⟩
      have hW : (steps m).W = p.screened f.spinless (steps m).P := by
        cases m with
        | zero => exact (sweep_ok _ _ _ _ h0).2.2.2.1
        | succ m => exact (sweep_ok _ _ _ _ (hs m (by omega))).2.2.2.1
      have hsol := screened_solves hm f.spinless (steps m).P w hw k (by simpa [hsp] using hdet)
      rw [← hW, hsp] at hsol
      simp only [Bool.false_eq_true, if_false, one_smul] at hsol
      rw [unswappedW_iff, unswappedRpa_iff] at hsol
      rw [unswappedRpa_iff]
      unfold SolverParams.susceptibility
      rw [C02_distributedAssign _ hm.ranks _ (prodMesh_nodup hm.bfreqs hm.lat.1),
        if_pos (mem_prodMesh.2 ⟨hw, hm.lat.2 k⟩)]
      dsimp only [Bare.at]
      rw [screenedGeneralizedPoint, pairMat_matTensor]
      generalize pairMat ((steps m).W (w, k)) = W at hsol
      generalize pairMat ((steps m).P w k) = Q at *
      generalize pairMat (p.V k) = V at *
      calc Q * W * Q + Q = Q * (V + V * Q * W) * Q + Q := by rw [← hsol]
        _ = Q + Q * V * (Q * W * Q + Q) := by noncomm_ring

/-- C87 (parts): when all three parts are enabled, the reported self energy is the sum of the three reported parts. -/
theorem C87_parts_partial (f : Flags) (hh : f.hartree = true) (hf : f.fock = true) (hg : f.gw = true) (tol : ℝ)
    (maxiter : ℕ) (s s' : SolverState n o) (h : p.solveIter f tol maxiter s = .ok s') :
    ∃ H F D, s'.sigmaHartree = some H ∧ s'.sigmaFock = some F ∧ s'.sigmaDyn = some D ∧
      ∀ w k a b, s'.sigma w k a b = H k a b + F k a b + D w k a b := by
  unfold SolverParams.solveIter at h
  cases hl : p.loop f tol maxiter s.mu s.g none none with
  | error err => rw [hl] at h; cases h
  | ok r =>
    rw [hl] at h
    dsimp only at h
    unfold SolverParams.finish at h
    cases maxiter with
    | zero =>
      rw [SolverParams.loop] at hl
      obtain rfl := (Except.ok.inj hl).symm
      simp [hg] at h
    | succ fuel =>
      obtain ⟨m, steps, -, h0, hs, rfl, -, -⟩ := loop_trace f tol fuel _ _ _ _ r hl
      obtain rfl := (Except.ok.inj h).symm
      simp only [hg, hf, hh, if_true]
      refine ⟨_, _, _, rfl, rfl, rfl, fun w k a b => ?_⟩
      have : ∀ w k, (steps m).sigma w k = (if f.hartree then (steps m).hartree k else 0)
          + (if f.fock then (steps m).fock k else 0) + (if f.gw then (steps m).dyn w k else 0) := by
        cases m with
        | zero => exact (sweep_ok _ _ _ _ h0).2.2.2.2.2.2.1
        | succ m => exact (sweep_ok _ _ _ _ (hs m (by omega))).2.2.2.2.2.2.1
      rw [this]
      simp [hh, hf, hg]

/-- the final assignments only look at the result of the loop, except for the parts that are not enabled -/
theorem loop_append (f : Flags) (tol : ℝ) (htol : tol ≤ 0) (hne : p.freqs ≠ [] ∧ p.lat ≠ [] ∧ Nonempty o) (m : ℕ) (mu : ℝ)
    (g : G n o) (old old' : Option (G n o)) (last last' : Option (Sweep n o)) (j : ℕ) (t : Sweep n o)
    (h : p.loop f tol (m + 1) mu g old last = .ok (some t)) :
    p.loop f tol (m + 1 + (j + 1)) mu g old last = p.loop f tol (j + 1) t.mu t.g old' last' := by
  have hclose : ∀ (old : Option (G n o)) (g : G n o), ¬ p.close tol old g := by
    intro old g hc
    cases old with
    | none => exact hc
    | some h =>
      obtain ⟨w, hw⟩ := List.exists_mem_of_ne_nil _ hne.1
      obtain ⟨k, hk⟩ := List.exists_mem_of_ne_nil _ hne.2.1
      obtain ⟨a⟩ := hne.2.2
      exact absurd (hc w hw k hk a a) (not_lt.2 (htol.trans (norm_nonneg _)))
  have hold : ∀ (fuel : ℕ) (mu : ℝ) (g : G n o) (o1 o2 : Option (G n o)) (l1 l2 : Option (Sweep n o)),
      p.loop f tol (fuel + 1) mu g o1 l1 = p.loop f tol (fuel + 1) mu g o2 l2 := by
    intro fuel mu g o1 o2 l1 l2
    rw [SolverParams.loop, SolverParams.loop]
    cases p.sweep f mu g with
    | error err => rfl
    | ok s => dsimp only; rw [if_neg (hclose _ _), if_neg (hclose _ _)]
  induction m generalizing mu g old last with
  | zero =>
    rw [SolverParams.loop] at h
    rw [show 0 + 1 + (j + 1) = (j + 1) + 1 from by omega, SolverParams.loop]
    cases hs : p.sweep f mu g with
    | error err => rw [hs] at h; cases h
    | ok s =>
      rw [hs] at h
      dsimp only at h ⊢
      rw [if_neg (hclose _ _)] at h ⊢
      rw [SolverParams.loop] at h
      have := Option.some.inj (Except.ok.inj h)
      subst this
      exact hold _ _ _ _ _ _ _
  | succ m ih =>
    rw [SolverParams.loop] at h
    rw [show m + 1 + 1 + (j + 1) = (m + 1 + (j + 1)) + 1 from by omega, SolverParams.loop]
    cases hs : p.sweep f mu g with
    | error err => rw [hs] at h; cases h
    | ok s =>
      rw [hs] at h
      dsimp only at h ⊢
      rw [if_neg (hclose _ _)] at h ⊢
      exact ih _ _ _ _ h

/-- C87 (restart): without early stopping (`tol ≤ 0`), `m` iterations followed by a second call with `j` iterations
report the same as one call with `m + j` iterations. -/
theorem C87_restart (f : Flags) (tol : ℝ) (htol : tol ≤ 0) (hne : p.freqs ≠ [] ∧ p.lat ≠ [] ∧ Nonempty o) (m j : ℕ)
    (hm : 1 ≤ m) (hj : 1 ≤ j) (s s' : SolverState n o) (h : p.solveIter f tol m s = .ok s') :
    p.solveIter f tol j s' = p.solveIter f tol (m + j) s := by
  obtain ⟨m, rfl⟩ : ∃ i, m = i + 1 := ⟨m - 1, by omega⟩
  obtain ⟨j, rfl⟩ : ∃ i, j = i + 1 := ⟨j - 1, by omega⟩
  unfold SolverParams.solveIter at h ⊢
  cases hl : p.loop f tol (m + 1) s.mu s.g none none with
  | error err => rw [hl] at h; cases h
  | ok r =>
    obtain ⟨i, steps, -, h0, hs, hr, -, -⟩ := loop_trace f tol m _ _ _ _ r hl
    rw [hr] at hl
    rw [hl] at h
    dsimp only [SolverParams.finish] at h
    obtain rfl := (Except.ok.inj h).symm
    rw [loop_append f tol htol hne m s.mu s.g none none none none j _ hl]
    dsimp only
    cases hl2 : p.loop f tol (j + 1) (steps i).mu (steps i).g none none with
    | error err => rfl
    | ok r2 =>
      obtain ⟨i2, steps2, -, h02, hs2, hr2, -, -⟩ := loop_trace f tol j _ _ _ _ r2 hl2
      rw [hr2]
      dsimp only [SolverParams.finish]
      rcases f with ⟨fh, ff, fg, fs⟩
      cases fh <;> cases ff <;> cases fg <;> rfl

theorem loop_total_of (f : Flags) (hs : ∀ mu g, ∃ t, p.sweep f mu g = .ok t) (tol : ℝ) (fuel : ℕ) (mu : ℝ) (g : G n o)
    (old : Option (G n o)) (last : Option (Sweep n o)) : ∃ t, p.loop f tol (fuel + 1) mu g old last = .ok (some t) := by
  induction fuel generalizing mu g old last with
  | zero =>
    obtain ⟨t, ht⟩ := hs mu g
    rw [SolverParams.loop, ht]
    dsimp only
    split_ifs
    · exact ⟨t, rfl⟩
    · exact ⟨t, by rw [SolverParams.loop]⟩
  | succ fuel ih =>
    obtain ⟨t, ht⟩ := hs mu g
    rw [SolverParams.loop, ht]
    dsimp only
    split_ifs
    · exact ⟨t, rfl⟩
    · exact ih _ _ _ _

/-- `solve_iter` returns when every pass does -/
theorem solveIter_total_of (f : Flags) (hs : ∀ mu g, ∃ t, p.sweep f mu g = .ok t) (tol : ℝ) (maxiter : ℕ)
    (h1 : 1 ≤ maxiter) (s : SolverState n o) : ∃ s', p.solveIter f tol maxiter s = .ok s' := by
  obtain ⟨fuel, rfl⟩ : ∃ fuel, maxiter = fuel + 1 := ⟨maxiter - 1, by omega⟩
  obtain ⟨t, ht⟩ := loop_total_of f hs tol fuel s.mu s.g none none
  unfold SolverParams.solveIter
  rw [ht]
  exact ⟨_, rfl⟩

/-- C87 (acceptance): without a fixed density `solve_iter` with at least one iteration always returns. -/
theorem C87_total (hN : p.nFix = 0) (f : Flags) (tol : ℝ) (maxiter : ℕ) (h1 : 1 ≤ maxiter) (s : SolverState n o) :
    ∃ s', p.solveIter f tol maxiter s = .ok s' := by
  refine solveIter_total_of f (fun mu g => ?_) tol maxiter h1 s
  unfold SolverParams.sweep SolverParams.dyson
  simp only [hN, if_true]
  exact ⟨_, rfl⟩

/-- parts that are switched off keep their value from earlier calls -/
theorem solveIter_stale (f : Flags) (tol : ℝ) (maxiter : ℕ) (s s' : SolverState n o)
    (h : p.solveIter f tol maxiter s = .ok s') : (f.hartree = false → s'.sigmaHartree = s.sigmaHartree) ∧
      (f.fock = false → s'.sigmaFock = s.sigmaFock) ∧ (f.gw = false → s'.sigmaDyn = s.sigmaDyn ∧ s'.P = s.P ∧
        s'.W = s.W ∧ s'.wDyn = s.wDyn ∧ s'.chi = s.chi) := by
  unfold SolverParams.solveIter at h
  cases hl : p.loop f tol maxiter s.mu s.g none none with
  | error err => rw [hl] at h; cases h
  | ok r =>
    rw [hl] at h
    dsimp only at h
    unfold SolverParams.finish at h
    cases r with
    | none =>
      dsimp only at h
      split_ifs at h
      obtain rfl := (Except.ok.inj h).symm
      exact ⟨fun _ => rfl, fun _ => rfl, fun _ => ⟨rfl, rfl, rfl, rfl, rfl⟩⟩
    | some t =>
      obtain rfl := (Except.ok.inj h).symm
      refine ⟨fun hf => ?_, fun hf => ?_, fun hf => ?_⟩ <;> simp [hf]

/-- C87 (constructor): without a fixed density the constructor always returns; the Green's function is the given one or
else the non-interacting one at the given chemical potential (zero by default), the self energy vanishes. -/
theorem C87_init (hm : GoodMeshes p) (hN : p.nFix = 0) (mu : Option ℝ) (g : Option (G n o)) :
    ∃ s, p.init mu g = .ok s ∧ s.mu = mu.getD 0 ∧ (∀ w k a b, s.sigma w k a b = 0) ∧ (∀ g1, g = some g1 → s.g = g1) ∧
      (g = none → ∀ w ∈ p.freqs, ∀ k, IsUnit ((p.val w + (s.mu : ℂ)) • (1 : Matrix o o ℂ) - p.e k).det →
        SolvesDyson (p.val w) (s.mu : ℂ) (p.e k) 0 (Matrix.of (s.g w k))) := by
  unfold SolverParams.init SolverParams.dyson
  simp only [hN, if_true]
  cases g with
  | none =>
    refine ⟨_, rfl, rfl, fun _ _ _ _ => rfl, fun g1 h => (by cases h), fun _ w hw k hdet => ?_⟩
    rw [dispatch_none hm _ w hw k]
    unfold SolvesDyson
    rw [sub_zero]
    exact ⟨Matrix.mul_nonsing_inv _ hdet, Matrix.nonsing_inv_mul _ hdet⟩
  | some g1 =>
    exact ⟨_, rfl, rfl, fun _ _ _ _ => rfl, fun g2 h => Option.some.inj h, fun h => by cases h⟩

end Verif.Gw
