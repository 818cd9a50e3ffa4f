import Verif.Reversal.Props
import Verif.Mirror.Gw

/-!
# C131: reversal of motion in the GW solver
-/

set_option linter.unusedSectionVars false

noncomputable section

namespace Verif.Reversal

open Complex Matrix Verif.Parallel Verif.Fourier Verif.Bubble Verif.Gw Verif.Rpa Verif.Dyson

variable {dm : ℕ} {n : Fin dm → ℕ} [∀ i, NeZero (n i)] {o : Type} [Fintype o] [DecidableEq o]

/-- The reversed problem on the same meshes, with any transforms between time and frequency.  The interaction at zero momentum may be
read with its two pairs of operators exchanged. -/
structure RevGw (p p' : SolverParams n o) : Prop where
  good : GoodMeshes p
  good' : GoodMeshes p'
  freqs : p'.freqs = p.freqs
  bfreqs : p'.bfreqs = p.bfreqs
  nw : p'.nw = p.nw
  L : p'.L = p.L
  beta : p'.beta = p.beta
  val : p'.val = p.val
  pieces : p'.pieces = p.pieces
  boseFreq : p'.boseFreq = p.boseFreq
  nFix : p'.nFix = p.nFix
  bracket : p'.bracket = p.bracket
  brentq : p'.brentq = p.brentq
  e : ∀ k, p'.e k = (p.e (-k))ᵀ
  V : ∀ k, p'.V k = rev4 (p.V (-k))
  exch : ∀ a b c d, p.V 0 a b c d = p.V 0 c d a b

variable {p p' : SolverParams n o} {g : G n o}

/-! ## Parts -/

theorem rho_rev (h : RevGw p p') (k : Lat n) (i j : o) : rhoSpec p' (revG g) k i j = rhoSpec p g (-k) j i := by
  unfold rhoSpec revG
  rw [h.pieces]

theorem gTime_rev (h : RevGw p p') : gTimeSpace p' (revG g) = revG (gTimeSpace p g) := by
  funext t r a b
  unfold gTimeSpace
  rw [h.pieces]
  change _ = p.pieces.gToTau (fun w => kToR (fun k => g w k b a) (-r)) t
  congr 1
  funext w
  exact Supercell.kToR_flip (fun k => g w k b a) r

theorem hartree_rev (h : RevGw p p') (a b : o) : hartreeSpec p' (revG g) a b = hartreeSpec p g b a := by
  have hr : ∀ c d, (∑ q, rhoSpec p' (revG g) q c d) = ∑ q, rhoSpec p g q d c := by
    intro c d
    simp only [rho_rev h]
    exact Equiv.sum_comp (Equiv.neg (Lat n)) fun q => rhoSpec p g q d c
  unfold hartreeSpec
  rw [Finset.sum_comm]
  refine Finset.sum_congr rfl fun c _ => Finset.sum_congr rfl fun d _ => ?_
  rw [hr, h.V, neg_zero, h.exch b a c d]
  rfl

theorem fock_rev (h : RevGw p p') (k : Lat n) (a b : o) : fockSpec p' (revG g) k a b = fockSpec p g (-k) b a := by
  unfold fockSpec
  congr 2
  rw [← Equiv.sum_comp (Equiv.neg (Lat n)) fun q => ∑ c, ∑ d, p.V q b c d a * rhoSpec p g (-k - q) d c]
  refine Finset.sum_congr rfl fun q _ => ?_
  rw [Finset.sum_comm, Equiv.neg_apply]
  refine Finset.sum_congr rfl fun c _ => Finset.sum_congr rfl fun d _ => ?_
  rw [rho_rev h, h.V, show -(k - q) = -k - -q by abel]
  rfl

theorem chi0_rev (h : RevGw p p') (w : ℤ) (k : Lat n) : p'.chi0 (revG g) w k = rev4 (p.chi0 g w (-k)) := by
  unfold SolverParams.chi0
  by_cases hn : p.nw = 1
  · rw [if_pos hn, if_pos (h.nw.trans hn)]
    by_cases hw : w = 0
    · rw [if_pos hw, if_pos hw, gTr_eq, gTr_eq, gTime_rev h]
      funext a b c d
      simp only [rev4]
      rw [rToK_apply4, rToK_apply4, ← Mirror.rToK_lin]
      congr 1
      funext r
      rw [(C131_bubble_tau h.good'.ranks p'.L h.good'.lat (p'.beta : ℂ) (gTimeSpace p g) r).2]
      unfold chi0W0r
      rw [h.good.lat.assign h.good.ranks, h.good'.lat.assign h.good'.ranks, h.beta, h.L]
      rfl
    · rw [if_neg hw, if_neg hw]
      rfl
  · rw [if_neg hn, if_neg fun h' => hn (h.nw ▸ h')]
    funext a b c d
    simp only [rev4]
    rw [rToK_apply4, rToK_apply4, ← Mirror.rToK_lin]
    congr 1
    funext r
    rw [h.boseFreq]
    congr 1
    funext t
    unfold chi0tr
    rw [h.good.lat.assign h.good.ranks, h.good'.lat.assign h.good'.ranks, h.L, gTr_eq, gTr_eq, gTime_rev h]
    rfl

theorem pol_rev (h : RevGw p p') (w : ℤ) (k : Lat n) : p'.polarization (revG g) w k = rev4 (p.polarization g w (-k)) := by
  unfold SolverParams.polarization
  rw [chi0_rev h]
  rfl

theorem W_rev (h : RevGw p p') (s : Bool) (w : ℤ) (k : Lat n) :
    p'.screened s (p'.polarization (revG g)) (w, k) = rev4 (p.screened s (p.polarization g) (w, -k)) := by
  rw [screened_eq h.good', screened_eq h.good, h.bfreqs]
  by_cases hw : w ∈ p.bfreqs
  · rw [if_pos hw, if_pos hw, C17_paths_agree, C17_paths_agree, h.V, ← (screened_rev _ _).1, pol_rev h]
    rfl
  · rw [if_neg hw, if_neg hw]
    rfl

theorem dyn_rev (h : RevGw p p') {W W' : ℤ × Lat n → Bubble.T4 o} (hW : ∀ v q, W' (v, q) = rev4 (W (v, -q)))
    (g : G n o) (w : ℤ) (k : Lat n) (a b : o) : dynSpec p' W' (revG g) w k a b = dynSpec p W g w (-k) b a := by
  have e1 : ∀ v q c d, (if v ∈ p.bfreqs then W' (v, q) a c d b - p'.V q a c d b else 0)
      = if v ∈ p.bfreqs then W (v, -q) b d c a - p.V (-q) b d c a else 0 := by
    intro v q c d
    rw [hW, h.V]
    rfl
  have e2 : ∀ t r c d, gTimeSpace p' (revG g) t r c d = gTimeSpace p g t (-r) d c := by
    intro t r c d
    rw [gTime_rev h]
    rfl
  have e3 : ∀ v c d r, kToR (fun q => if v ∈ p.bfreqs then W (v, -q) b d c a - p.V (-q) b d c a else 0) r
      = kToR (fun q => if v ∈ p.bfreqs then W (v, q) b d c a - p.V q b d c a else 0) (-r) := fun v c d r =>
    Supercell.kToR_flip (fun q => if v ∈ p.bfreqs then W (v, q) b d c a - p.V q b d c a else 0) r
  unfold dynSpec
  rw [← Mirror.rToK_lin, h.pieces, h.L, h.bfreqs]
  refine congrFun (congrArg rToK (funext fun r => ?_)) k
  refine congrFun (congrArg p.pieces.toFreq (funext fun t => ?_)) w
  refine if_congr Iff.rfl (congrArg Neg.neg ?_) rfl
  rw [Finset.sum_comm]
  refine Finset.sum_congr rfl fun d _ => Finset.sum_congr rfl fun c _ => ?_
  rw [e2]
  refine congrArg (· * _) ?_
  simp only [e1, e3]

/-! ## Dyson equation and chemical potential -/

theorem dispatch_rev (h : RevGw p p') (s : Option (ℤ → Lat n → o → o → ℂ)) (mu : ℝ) :
    p'.dispatch mu (s.map revG) = revG (p.dispatch mu s) := by
  have hm := prodMesh_nodup h.good.freqs h.good.lat.1
  have hm' := prodMesh_nodup h.good'.freqs h.good'.lat.1
  have hE : p'.e = revE Neg.neg p.e := funext h.e
  have hin : ∀ w (k k' : Lat n), (w, k) ∈ prodMesh p'.freqs p'.lat ↔ (w, k') ∈ prodMesh p.freqs p.lat := by
    intro w k k'
    rw [mem_prodMesh, mem_prodMesh, h.freqs]
    simp only [h.good.lat.2, h.good'.lat.2]
  funext w k a b
  cases s with
  | none =>
    refine congrFun (congrFun (?_ : p'.dispatch mu none w k = (Matrix.of (p.dispatch mu none w (-k)))ᵀ) a) b
    change latticeDysonG0Xk p'.ranks (mu : ℂ) p'.val p'.freqs p'.lat p'.e (w, k)
      = (latticeDysonG0Xk p.ranks (mu : ℂ) p.val p.freqs p.lat p.e (w, -k))ᵀ
    unfold latticeDysonG0Xk
    rw [C02_distributedAssign _ h.good.ranks _ hm, C02_distributedAssign _ h.good'.ranks _ hm']
    by_cases hw : (w, -k) ∈ prodMesh p.freqs p.lat
    · rw [if_pos hw, if_pos ((hin w k (-k)).2 hw), h.val, h.e]
      have := rev_inv (p.val w + (mu : ℂ)) (p.e (-k)) 0
      rw [Matrix.transpose_zero, sub_zero, sub_zero] at this
      exact this
    · rw [if_neg hw, if_neg fun h' => hw ((hin w k (-k)).1 h'), Matrix.transpose_zero]
  | some s =>
    refine congrFun (congrFun (?_ : p'.dispatch mu (some (revG s)) w k = (Matrix.of (p.dispatch mu (some s) w (-k)))ᵀ) a) b
    change latticeDysonGXk p'.ranks (mu : ℂ) p'.val p'.freqs p'.lat p'.e (.lattice fun w k => Matrix.of (revG s w k)) 0 (w, k)
      = (latticeDysonGXk p.ranks (mu : ℂ) p.val p.freqs p.lat p.e (.lattice fun w k => Matrix.of (s w k)) 0 (w, -k))ᵀ
    unfold latticeDysonGXk
    rw [C02_distributedAssign _ h.good.ranks _ hm, C02_distributedAssign _ h.good'.ranks _ hm']
    by_cases hw : (w, -k) ∈ prodMesh p.freqs p.lat
    · rw [if_pos hw, if_pos ((hin w k (-k)).2 hw), h.val, h.e]
      exact rev_inv (p.val w + 0 + (mu : ℂ)) (p.e (-k)) (Matrix.of (s w (-k)))
    · rw [if_neg hw, if_neg fun h' => hw ((hin w k (-k)).1 h'), Matrix.transpose_zero]

/-- C131: the number of particles. -/
theorem C131_gw_density (h : RevGw p p') (g : G n o) : totalDensity (p'.rhoR (revG g)) = totalDensity (p.rhoR g) := by
  have h0 : ∀ (F : Lat n → o → o → ℂ) a, kToR F 0 a a = (Fintype.card (Lat n) : ℂ)⁻¹ * ∑ q, F q a a := by
    intro F a
    rw [Supercell.kToR_entry2, Supercell.kToR_lin, Finset.mul_sum]
    refine Finset.sum_congr rfl fun q _ => ?_
    rw [ker_zero_right, mul_one, smul_eq_mul]
  unfold totalDensity SolverParams.rhoR
  rw [rhoK_eq h.good, rhoK_eq h.good']
  refine Finset.sum_congr rfl fun a _ => ?_
  rw [h0, h0]
  simp only [rho_rev h]
  congr 2
  exact Equiv.sum_comp (Equiv.neg (Lat n)) fun q => rhoSpec p g q a a

theorem dyson_rev (h : RevGw p p') (s : Option (ℤ → Lat n → o → o → ℂ)) (mu : ℝ) :
    p'.dyson mu (s.map revG) = (p.dyson mu s).map fun x => (revG x.1, x.2) := by
  have ht : p'.target (s.map revG) = p.target s := by
    funext x
    unfold SolverParams.target
    rw [dispatch_rev h, C131_gw_density h, h.nFix]
  unfold SolverParams.dyson
  by_cases h0 : p.nFix = 0
  · rw [if_pos h0, if_pos (h.nFix.trans h0), dispatch_rev h]
    rfl
  · rw [if_neg h0, if_neg fun h' => h0 (h.nFix ▸ h'), ht, h.bracket, h.brentq]
    cases p.brentq (p.target s) p.bracket.1 p.bracket.2 with
    | error e => rfl
    | ok x =>
      dsimp only
      rw [dispatch_rev h]
      rfl

/-! ## A pass and a run -/

/-- everything that a pass computes, read backwards -/
def revSweep (t : Sweep n o) : Sweep n o where
  g := revG t.g
  mu := t.mu
  sigma := revG t.sigma
  hartree := fun k a b => t.hartree (-k) b a
  fock := fun k a b => t.fock (-k) b a
  dyn := revG t.dyn
  P := fun w k => rev4 (t.P w (-k))
  W := fun x => rev4 (t.W (x.1, -x.2))
  wDyn := fun x => rev4 (t.wDyn (x.1, -x.2))

/-- the sum of the enabled parts of the self energy -/
def sum3 (f : Flags) (sH sF : Lat n → o → o → ℂ) (sD : ℤ → Lat n → o → o → ℂ) : ℤ → Lat n → o → o → ℂ :=
  let s0 : ℤ → Lat n → o → o → ℂ := fun _ _ => 0
  let s1 := if f.hartree then fun w k => s0 w k + sH k else s0
  let s2 := if f.fock then fun w k => s1 w k + sF k else s1
  if f.gw then fun w k => s2 w k + sD w k else s2

theorem sum3_rev (f : Flags) (sH sF : Lat n → o → o → ℂ) (sD : ℤ → Lat n → o → o → ℂ) :
    sum3 f (fun k a b => sH (-k) b a) (fun k a b => sF (-k) b a) (revG sD) = revG (sum3 f sH sF sD) := by
  unfold sum3
  cases f.hartree <;> cases f.fock <;> cases f.gw <;> rfl

theorem sweep_def (p : SolverParams n o) (f : Flags) (mu : ℝ) (g : G n o) : p.sweep f mu g
    = match p.dyson mu (some (sum3 f (p.sigmaHartree g) (p.sigmaFock g)
        (p.sigmaDyn (p.wDyn (p.screened f.spinless (p.polarization g))) g))) with
      | .error err => .error err
      | .ok (g', mu') => .ok ⟨g', mu', sum3 f (p.sigmaHartree g) (p.sigmaFock g)
        (p.sigmaDyn (p.wDyn (p.screened f.spinless (p.polarization g))) g), p.sigmaHartree g, p.sigmaFock g,
        p.sigmaDyn (p.wDyn (p.screened f.spinless (p.polarization g))) g, p.polarization g,
        p.screened f.spinless (p.polarization g), p.wDyn (p.screened f.spinless (p.polarization g))⟩ := rfl

/-- C131: one pass of the GW solver for the reversed problem, from the reversed Green's function, with fixed chemical potential or with
a fixed number of particles: the same error or all results read backwards. -/
theorem C131_gw (h : RevGw p p') (f : Flags) (mu : ℝ) (g : G n o) :
    p'.sweep f mu (revG g) = (p.sweep f mu g).map revSweep := by
  have eH : p'.sigmaHartree (revG g) = fun k a b => p.sigmaHartree g (-k) b a := by
    funext k a b
    rw [sigmaHartree_eq h.good', sigmaHartree_eq h.good, hartree_rev h]
  have eF : p'.sigmaFock (revG g) = fun k a b => p.sigmaFock g (-k) b a := by
    funext k a b
    rw [sigmaFock_eq h.good', sigmaFock_eq h.good, fock_rev h]
  have eP : p'.polarization (revG g) = fun w k => rev4 (p.polarization g w (-k)) := funext fun w => funext fun k => pol_rev h w k
  have eW : p'.screened f.spinless (p'.polarization (revG g))
      = fun x => rev4 (p.screened f.spinless (p.polarization g) (x.1, -x.2)) := funext fun x => W_rev h f.spinless x.1 x.2
  have eD : p'.sigmaDyn (p'.wDyn (p'.screened f.spinless (p'.polarization (revG g)))) (revG g)
      = revG (p.sigmaDyn (p.wDyn (p.screened f.spinless (p.polarization g))) g) := by
    funext w k a b
    rw [sigmaDyn_eq h.good']
    change _ = p.sigmaDyn (p.wDyn (p.screened f.spinless (p.polarization g))) g w (-k) b a
    rw [sigmaDyn_eq h.good]
    exact dyn_rev h (fun v q => W_rev h f.spinless v q) g w k a b
  have eWd : p'.wDyn (p'.screened f.spinless (p'.polarization (revG g)))
      = fun x => rev4 (p.wDyn (p.screened f.spinless (p.polarization g)) (x.1, -x.2)) := by
    funext x
    obtain ⟨w, k⟩ := x
    rw [wDyn_eq h.good', wDyn_eq h.good, h.bfreqs, W_rev h, h.V]
    by_cases hw : w ∈ p.bfreqs
    · rw [if_pos hw, if_pos hw]
      rfl
    · rw [if_neg hw, if_neg hw]
  rw [sweep_def, sweep_def, eD, eWd, eW, eH, eF, eP]
  generalize p.sigmaHartree g = sH
  generalize p.sigmaFock g = sF
  generalize p.sigmaDyn (p.wDyn (p.screened f.spinless (p.polarization g))) g = sD
  generalize p.wDyn (p.screened f.spinless (p.polarization g)) = Wd
  generalize p.screened f.spinless (p.polarization g) = W
  generalize p.polarization g = P
  have hd := dyson_rev h (some (sum3 f sH sF sD)) mu
  rw [Option.map_some] at hd
  rw [sum3_rev, hd]
  generalize p.dyson mu _ = r
  cases r with
  | error e => rfl
  | ok x => rfl

theorem close_rev (h : RevGw p p') (tol : ℝ) (old : Option (G n o)) (g : G n o) :
    p'.close tol (old.map revG) (revG g) ↔ p.close tol old g := by
  cases old with
  | none => exact Iff.rfl
  | some x =>
    change (∀ w ∈ p'.freqs, ∀ k ∈ p'.lat, ∀ a b, ‖g w (-k) b a - x w (-k) b a‖ < tol)
      ↔ ∀ w ∈ p.freqs, ∀ k ∈ p.lat, ∀ a b, ‖g w k a b - x w k a b‖ < tol
    rw [h.freqs]
    constructor
    · intro h1 w hw k _ a b
      have := h1 w hw (-k) (h.good'.lat.2 _) b a
      rwa [neg_neg] at this
    · intro h1 w hw k _ a b
      exact h1 w hw (-k) (h.good.lat.2 _) b a

open Classical in
/-- C131: a whole run of the solver, with the same number of passes. -/
theorem C131_gw_run (h : RevGw p p') (f : Flags) (tol : ℝ) (fuel : ℕ) (mu : ℝ) (g : G n o) (old : Option (G n o))
    (last : Option (Sweep n o)) :
    p'.loop f tol fuel mu (revG g) (old.map revG) (last.map revSweep) = (p.loop f tol fuel mu g old last).map (Option.map revSweep) := by
  induction fuel generalizing mu g old last with
  | zero => rfl
  | succ fuel ih =>
    unfold SolverParams.loop
    rw [C131_gw h]
    cases p.sweep f mu g with
    | error e => rfl
    | ok t =>
      change (if p'.close tol (old.map revG) (revG t.g) then Except.ok (some (revSweep t))
        else p'.loop f tol fuel t.mu (revG t.g) ((some t.g).map revG) ((some t).map revSweep))
        = Except.map (Option.map revSweep) (if p.close tol old t.g then Except.ok (some t)
          else p.loop f tol fuel t.mu t.g (some t.g) (some t))
      by_cases hc : p.close tol old t.g
      · rw [if_pos hc, if_pos ((close_rev h tol old t.g).2 hc)]
        rfl
      · rw [if_neg hc, if_neg fun h' => hc ((close_rev h tol old t.g).1 h')]
        exact ih t.mu t.g (some t.g) (some t)

/-- C131: `solve_iter` from the reversed state: the same error, or the same chemical potential, the same number of particles and the
Green's function and self energy read backwards. -/
theorem C131_gw_solve (h : RevGw p p') (f : Flags) (tol : ℝ) (m : ℕ) {s s' : SolverState n o} (hmu : s'.mu = s.mu)
    (hg : s'.g = revG s.g) :
    (∀ e, p.solveIter f tol m s = .error e → p'.solveIter f tol m s' = .error e) ∧
      ∀ r, p.solveIter f tol m s = .ok r → ∃ r', p'.solveIter f tol m s' = .ok r' ∧ r'.mu = r.mu ∧ r'.N = r.N ∧ r'.g = revG r.g ∧
        r'.sigma = revG r.sigma := by
  have hl := C131_gw_run h f tol m s.mu s.g none none
  rw [Option.map_none, Option.map_none] at hl
  unfold SolverParams.solveIter
  rw [hmu, hg, hl]
  generalize p.loop f tol m s.mu s.g none none = l
  cases l with
  | error e => exact ⟨fun e' he => he, fun r hr => by cases hr⟩
  | ok last =>
    cases last with
    | none =>
      change (∀ e, p.finish f s none = .error e → p'.finish f s' none = .error e) ∧
        ∀ r, p.finish f s none = .ok r → ∃ r', p'.finish f s' none = .ok r' ∧ r'.mu = r.mu ∧ r'.N = r.N ∧ r'.g = revG r.g ∧
          r'.sigma = revG r.sigma
      unfold SolverParams.finish
      dsimp only
      cases f.gw with
      | true => exact ⟨fun e he => he, fun r hr => by cases hr⟩
      | false =>
        refine ⟨fun e he => (by cases he), fun r hr => ?_⟩
        obtain rfl := Except.ok.inj hr
        exact ⟨_, rfl, hmu, by rw [hg]; exact congrArg some (C131_gw_density h s.g), hg, rfl⟩
    | some t =>
      refine ⟨fun e he => (by cases he), fun r hr => ?_⟩
      obtain rfl := Except.ok.inj hr
      exact ⟨_, rfl, rfl, congrArg some (C131_gw_density h t.g), rfl, rfl⟩

/-- C131: the start of a run. -/
theorem C131_gw_start (h : RevGw p p') (mu : ℝ) : p'.dyson mu none = (p.dyson mu none).map fun x => (revG x.1, x.2) :=
  dyson_rev h none mu

/-- C131: a model that is its own reversal stays so: from a Green's function that can be read in both directions every pass makes
another one, and self energy, polarisation and screened interaction can be read in both directions. -/
theorem C131_gw_symmetric (h : RevGw p p) (f : Flags) (mu : ℝ) {g : G n o} (hg : revG g = g) {t : Sweep n o}
    (ht : p.sweep f mu g = .ok t) : revG t.g = t.g ∧ revG t.sigma = t.sigma ∧ (∀ w k, t.P w k = rev4 (t.P w (-k))) ∧
      ∀ w k, t.W (w, k) = rev4 (t.W (w, -k)) := by
  have h1 := C131_gw h f mu g
  rw [hg, ht] at h1
  have h2 : t = revSweep t := Except.ok.inj h1
  refine ⟨?_, ?_, fun w k => ?_, fun w k => ?_⟩
  · conv_rhs => rw [h2]
    rfl
  · conv_rhs => rw [h2]
    rfl
  · conv_lhs => rw [h2]
    rfl
  · conv_lhs => rw [h2]
    rfl

end Verif.Reversal
