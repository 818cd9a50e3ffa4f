import Verif.Gw.SolverProps
import Verif.Bse.Converge

/-!
# C115: convergence of the frequency dependent GW self energy

`GWSolver.gw_dynamic_sigma` with the transforms of this repository, for an interaction and a Green's function that are smooth in
imaginary time.
-/

noncomputable section

set_option linter.unusedSectionVars false

namespace Verif.Gw

open Complex Verif.Parallel Verif.Fourier Verif.Bubble Verif.Dyson

variable {d : ℕ} {n : Fin d → ℕ} [∀ i, NeZero (n i)] {o : Type} [Fintype o] [DecidableEq o]

/-- an interaction in imaginary time at a lattice vector -/
def realW (W : ℝ → Lat n → Bubble.T4 o) (tau : ℝ) (r : Lat n) : Bubble.T4 o := fun a b c f => kToR (fun k => W tau k a b c f) r

/-- the self energy `-W G` in imaginary time, transformed exactly -/
def exactSigma (beta : ℝ) (W : ℝ → Lat n → Bubble.T4 o) (g : ℝ → Lat n → o → o → ℂ) (m : ℤ) (k : Lat n) (a b : o) : ℂ :=
  ∫ tau in (0 : ℝ)..beta, exp (matsubara .fermion beta m * tau)
    * rToK (fun r => -∑ c, ∑ f, realW W tau r a c f b * Bse.realSpace g tau r c f) k

/-- `gw_dynamic_sigma` applied to the Matsubara coefficients of `W` and `g` on meshes with `N` positive frequencies -/
structure SigmaRoute (p : SolverParams n o) (beta e : ℝ) (W : ℝ → Lat n → Bubble.T4 o) (g : ℝ → Lat n → o → o → ℂ) (N : ℕ)
    (fitW fitG : (ℤ → ℂ) → Moments) (Wdata : ℤ × Lat n → Bubble.T4 o) (gdata : G n o) : Prop where
  ranks : 0 < p.ranks
  nodup : p.lat.Nodup
  all : ∀ r, r ∈ p.lat
  pos : 0 < N
  long : 2 * N ≤ p.L
  nine : 8 ≤ p.L
  dataW : ∀ w ∈ wIndices .boson N, ∀ k a b c f, Wdata (w, k) a b c f = coeff .boson beta (fun tau => W tau k a b c f) w
  dataG : ∀ w ∈ wIndices .fermion N, ∀ k a b, gdata w k a b = coeff .fermion beta (fun tau => g tau k a b) w
  wToTau : p.pieces.wToTau = toTauFit .boson beta p.L N fitW
  gToTau : p.pieces.gToTau = toTauFit .fermion beta p.L N fitG
  toFreq : p.pieces.toFreq = toFreqFit .fermion beta p.L N
  momentsW : ∀ r a b c f, MomentsOk .boson beta e N (fun tau => realW W tau r a b c f)
    (fitW fun w => kToR (fun k => Wdata (w, k)) r a b c f)
  momentsG : ∀ r a b, MomentsOk .fermion beta e N (fun tau => Bse.realSpace g tau r a b) (fitG fun w => kToR (gdata w) r a b)

/-- the product in time, for all meshes -/
theorem sigma_close (beta : ℝ) (hb : 0 < beta) (e : ℝ) (he : 0 ≤ e) (W : ℝ → Lat n → Bubble.T4 o) (g : ℝ → Lat n → o → o → ℂ)
    (hW : ∀ k a b c f, ContDiff ℝ 9 fun tau => W tau k a b c f) (hg : ∀ k a b, ContDiff ℝ 9 fun tau => g tau k a b) (r : Lat n)
    (a b : o) :
    ∃ C, 0 ≤ C ∧ ∀ (p : SolverParams n o) (N : ℕ) (fitW fitG : (ℤ → ℂ) → Moments) (Wd : ℤ × Lat n → Bubble.T4 o) (gd : G n o),
      SigmaRoute p beta e W g N fitW fitG Wd gd → ∀ t ≤ p.L,
      ‖-∑ c, ∑ f, p.pieces.wToTau (fun w => kToR (fun k => Wd (w, k)) r a c f b) t * p.gTr gd t r c f
        - -∑ c, ∑ f, realW W (tauOf beta p.L t) r a c f b * Bse.realSpace g (tauOf beta p.L t) r c f‖ ≤ C * (1 / (N : ℝ) ^ 2) := by
  have hsW : ∀ r a b c f, ContDiff ℝ 9 fun tau => realW W tau r a b c f := fun r a b c f =>
    contDiff_kToR _ (fun k => hW k a b c f) r
  have hsG : ∀ r a b, ContDiff ℝ 9 fun tau => Bse.realSpace g tau r a b := fun r a b => contDiff_kToR _ (fun k => hg k a b) r
  choose C hC h using fun x : o × o => product_ok .boson .fermion beta hb e he _ _
    ((hsW r a x.1 x.2 b).of_le (by norm_num : (4 : WithTop ℕ∞) ≤ 9)) ((hsG r x.1 x.2).of_le (by norm_num : (4 : WithTop ℕ∞) ≤ 9))
  refine ⟨∑ c, ∑ f, 2 * C (c, f), Finset.sum_nonneg fun c _ => Finset.sum_nonneg fun f _ => by have := hC (c, f); positivity,
    fun p N fitW fitG Wd gd hp t ht => ?_⟩
  have e1 : -∑ c, ∑ f, p.pieces.wToTau (fun w => kToR (fun k => Wd (w, k)) r a c f b) t * p.gTr gd t r c f
        - -∑ c, ∑ f, realW W (tauOf beta p.L t) r a c f b * Bse.realSpace g (tauOf beta p.L t) r c f
      = -∑ c, ∑ f, (p.pieces.wToTau (fun w => kToR (fun k => Wd (w, k)) r a c f b) t * p.gTr gd t r c f
        - realW W (tauOf beta p.L t) r a c f b * Bse.realSpace g (tauOf beta p.L t) r c f) := by
    simp only [Finset.sum_sub_distrib]
    ring
  rw [e1, norm_neg, Finset.sum_mul]
  refine (norm_sum_le _ _).trans (Finset.sum_le_sum fun c _ => ?_)
  rw [Finset.sum_mul]
  refine (norm_sum_le _ _).trans (Finset.sum_le_sum fun f _ => ?_)
  obtain ⟨x, y, hx, hy, hxy⟩ := h (c, f) p.L N N _ _ hp.pos hp.pos hp.long hp.long (hp.momentsW r a c f b) (hp.momentsG r c f)
  have ex : p.pieces.wToTau (fun w => kToR (fun k => Wd (w, k)) r a c f b) t = x t := by
    rw [hp.wToTau, toTauFit, wToTau_congr _ _ _ _ _ _ _ _ (coeff .boson beta fun tau => realW W tau r a c f b) ?_, hx]
    · rfl
    · intro w hw
      unfold realW
      rw [kToR_apply4, coeff_kToR .boson beta (fun tau k => W tau k a c f b) fun k => (hW k a c f b).continuous]
      simp only [hp.dataW w hw]
  have ey : p.gTr gd t r c f = y t := by
    rw [SolverParams.gTr, hp.gToTau, toTauFit,
      wToTau_congr _ _ _ _ _ _ _ _ (coeff .fermion beta fun tau => Bse.realSpace g tau r c f) ?_, hy]
    · rfl
    · intro w hw
      unfold Bse.realSpace
      rw [kToR_apply2, coeff_kToR .fermion beta (fun tau k => g tau k c f) fun k => (hg k c f).continuous]
      simp only [hp.dataG w hw]
  rw [ex, ey]
  exact (hxy t t ht ht).trans (le_of_eq (by ring))

/-- C115: the frequency dependent part of the GW self energy converges to the exact transform of `-W(τ, r) G(τ, r)`. -/
theorem C115_gw (beta : ℝ) (hb : 0 < beta) (e : ℝ) (he : 0 ≤ e) (W : ℝ → Lat n → Bubble.T4 o) (g : ℝ → Lat n → o → o → ℂ)
    (hW : ∀ k a b c f, ContDiff ℝ 9 fun tau => W tau k a b c f) (hg : ∀ k a b, ContDiff ℝ 9 fun tau => g tau k a b) (m : ℤ)
    (k : Lat n) (a b : o) :
    ∃ C, 0 ≤ C ∧ ∀ (p : SolverParams n o) (N : ℕ) (fitW fitG : (ℤ → ℂ) → Moments) (Wd : ℤ × Lat n → Bubble.T4 o) (gd : G n o),
      SigmaRoute p beta e W g N fitW fitG Wd gd → ‖p.sigmaDyn Wd gd m k a b - exactSigma beta W g m k a b‖ ≤ C / (N : ℝ) ^ 2 := by
  have hsW : ∀ r a b c f, ContDiff ℝ 9 fun tau => realW W tau r a b c f := fun r a b c f =>
    contDiff_kToR _ (fun k => hW k a b c f) r
  have hsG : ∀ r a b, ContDiff ℝ 9 fun tau => Bse.realSpace g tau r a b := fun r a b => contDiff_kToR _ (fun k => hg k a b) r
  have hP : ∀ r, ContDiff ℝ 9 fun tau => -∑ c, ∑ f, realW W tau r a c f b * Bse.realSpace g tau r c f := fun r =>
    (ContDiff.sum fun c _ => ContDiff.sum fun f _ => (hsW r a c f b).mul (hsG r c f)).neg
  have hex : exactSigma beta W g m k a b
      = rToK (fun r => coeff .fermion beta (fun tau => -∑ c, ∑ f, realW W tau r a c f b * Bse.realSpace g tau r c f) m) k :=
    coeff_rToK .fermion beta _ (fun r => (hP r).continuous) k m
  choose C1 hC1 h1 using fun r => sigma_close beta hb e he W g hW hg r a b
  choose C2 hC2 h2 using fun r => C115_close .fermion beta hb _ (hP r) m
  refine ⟨∑ r, C2 r * (C1 r + 1), Finset.sum_nonneg fun r _ => ?_, fun p N fitW fitG Wd gd hp => ?_⟩
  · have := hC1 r
    have := hC2 r
    positivity
  have hNpos : (0 : ℝ) < N := by exact_mod_cast hp.pos
  have hLq : 1 / (p.L : ℝ) ^ 2 ≤ 1 / (N : ℝ) ^ 2 := by
    have h3 : (N : ℝ) ≤ p.L := by exact_mod_cast (by have := hp.long; omega : N ≤ p.L)
    gcongr
  have efin : (∑ r, C2 r * (C1 r + 1)) / (N : ℝ) ^ 2 = ∑ r, C2 r * (C1 r + 1) * (1 / (N : ℝ) ^ 2) := by
    rw [div_eq_mul_one_div, Finset.sum_mul]
  unfold SolverParams.sigmaDyn
  dsimp only
  rw [efin, hex, rToK_apply2, rToK_sub']
  refine norm_rToK_le _ _ _ fun r => ?_
  set x : ℕ → ℂ := fun t => distributedAssign p.ranks ((List.range (p.L + 1)).product p.lat)
    (fun x : ℕ × Lat n => gwPoint (fun a b c d => p.pieces.wToTau (fun w => kToR (fun k => Wd (w, k)) x.2 a b c d) x.1)
      (p.gTr gd x.1 x.2)) (t, r) a b with hx
  have hxv : ∀ t ≤ p.L, x t = -∑ c, ∑ f, p.pieces.wToTau (fun w => kToR (fun k => Wd (w, k)) r a c f b) t * p.gTr gd t r c f := by
    intro t ht
    have hnd : ((List.range (p.L + 1)).product p.lat).Nodup := List.Nodup.product List.nodup_range hp.nodup
    rw [hx]
    dsimp only
    have hmem : (t, r) ∈ (List.range (p.L + 1)).product p.lat := List.mem_product.2 ⟨List.mem_range.2 (by omega), hp.all r⟩
    rw [C02_distributedAssign _ hp.ranks _ hnd, if_pos hmem]
    simp only [gwPoint, neg_mul, Finset.sum_neg_distrib]
  obtain ⟨xw, hxw, h4⟩ := h2 r p.L N x _ hp.nine hp.long fun t ht => by
    rw [hxv t ht]
    exact h1 r p N fitW fitG Wd gd hp t ht
  have e4 : p.pieces.toFreq x m = xw m := by
    rw [hp.toFreq, toFreqFit, hxw]
    rfl
  rw [e4]
  refine h4.trans ?_
  have c1 := hC1 r
  have c2 := hC2 r
  have hsum : C1 r * (1 / (N : ℝ) ^ 2) + 1 / (p.L : ℝ) ^ 2 ≤ (C1 r + 1) * (1 / (N : ℝ) ^ 2) := by
    rw [add_mul, one_mul]
    linarith
  calc _ ≤ C2 r * ((C1 r + 1) * (1 / (N : ℝ) ^ 2)) := mul_le_mul_of_nonneg_left hsum c2
    _ = _ := by ring

/-! ## An example -/

/-- a phonon mediated interaction -/
def phonon (w beta : ℝ) : ℝ → Lat (fun _ : Fin 1 => 1) → Bubble.T4 Unit := fun tau _ _ _ _ _ => (Real.cosh (w * (tau - beta / 2)) : ℝ)

/-- one site, one orbital with a level `x`, on meshes with `N` positive frequencies -/
def phononParams (w x beta : ℝ) (N : ℕ) : SolverParams (fun _ : Fin 1 => 1) Unit where
  ranks := 2
  lat := [0]
  freqs := wIndices .fermion N
  bfreqs := wIndices .boson N
  nw := N
  beta := beta
  L := 6 * N + 8
  val := fun m => matsubara .fermion beta m
  pieces :=
    { gToTau := toTauFit .fermion beta (6 * N + 8) N (Bse.levelFit x beta)
      wToTau := toTauFit .boson beta (6 * N + 8) N fun _ => exactMoments .boson beta fun tau => realW (phonon w beta) tau 0 () () () ()
      toFreq := toFreqFit .fermion beta (6 * N + 8) N
      tail0 := fun _ => 0
      dens := fun _ => 0
      ntau := fun N => 6 * N + 8 }
  boseFreq := toFreqFit .boson beta (6 * N + 8) N
  e := fun _ => 0
  V := fun _ _ _ _ _ => 0
  nFix := 0
  bracket := (0, 0)
  brentq := fun _ a _ => .ok a

/-- the hypotheses of `C115_gw` hold for every mesh -/
example (w x beta : ℝ) (N : ℕ) (hN : 0 < N) :
    SigmaRoute (phononParams w x beta N) beta 0 (phonon w beta) (Bse.polesTime (Bse.oneLevel x) beta) N
      (fun _ => exactMoments .boson beta fun tau => realW (phonon w beta) tau 0 () () () ()) (Bse.levelFit x beta)
      (fun y a b c f => coeff .boson beta (fun tau => phonon w beta tau y.2 a b c f) y.1)
      (fun m k a b => coeff .fermion beta (fun tau => Bse.polesTime (Bse.oneLevel x) beta tau k a b) m)
    ∧ (∀ k a b c f, ContDiff ℝ 9 fun tau => phonon w beta tau k a b c f)
    ∧ ∀ k a b, ContDiff ℝ 9 fun tau => Bse.polesTime (Bse.oneLevel x) beta tau k a b := by
  have hk : ∀ r : Lat (fun _ : Fin 1 => 1), r = 0 := fun r => funext fun i => Subsingleton.elim (r i) 0
  refine ⟨⟨by norm_num [phononParams], List.nodup_singleton _, fun r => ?_, hN, ?_, ?_, fun _ _ _ _ _ _ _ => rfl, fun _ _ _ _ _ => rfl,
    rfl, rfl, rfl, fun r _ _ _ _ => ?_, fun r _ _ => ?_⟩, fun _ _ _ _ _ => ?_, Bse.contDiff_poles _ beta⟩
  · rw [hk r]
    exact List.mem_singleton_self _
  · simp only [phononParams]
    omega
  · simp only [phononParams]
    omega
  · rw [hk r]
    simp [MomentsOk]
  · rw [hk r]
    simp [MomentsOk, Bse.levelFit]
  · have h1 : ContDiff ℝ 9 fun tau : ℝ => Real.cosh (w * (tau - beta / 2)) :=
      Real.contDiff_cosh.comp (contDiff_const.mul (contDiff_id.sub contDiff_const))
    exact Complex.ofRealCLM.contDiff.comp h1

end Verif.Gw
