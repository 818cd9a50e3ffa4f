import Verif.Bse.SpecificProps
import Verif.Fourier.Chain
import Verif.Herm.Props

/-!
# C115: convergence of the bubble computed in imaginary time

`imtime_bubble_chi0_wk` with the transforms of this repository, for Green's functions that are smooth in imaginary time.
-/

noncomputable section

set_option linter.unusedSectionVars false

namespace Verif.Bse

open Complex Verif.Parallel Verif.Fourier Verif.GfMesh Verif.Bubble Verif.Dyson

variable {d : ℕ} {n : Fin d → ℕ} [∀ i, NeZero (n i)] {o : Type} [Fintype o] [DecidableEq o]

/-- the Green's function in imaginary time at a lattice vector -/
def realSpace (g : ℝ → Lat n → o → o → ℂ) (tau : ℝ) (r : Lat n) (a b : o) : ℂ := kToR (fun k => g tau k a b) r

/-- the exact bubble: the Fourier integral of the product of the two Green's functions -/
def exactBubble (beta : ℝ) (g : ℝ → Lat n → o → o → ℂ) (m : ℤ) (q : Lat n) : Bubble.T4 o := fun a b c f =>
  ∫ tau in (0 : ℝ)..beta, exp (matsubara .boson beta m * tau)
    * rToK (fun r => realSpace g tau r f a * realSpace g (beta - tau) (-r) b c) q

/-- `imtime_bubble_chi0_wk` applied to the Matsubara coefficients of `g` on a mesh with `N` positive frequencies -/
structure TimeRoute (p : Lattice n o) (beta e : ℝ) (g : ℝ → Lat n → o → o → ℂ) (N nw : ℕ) (fit : (ℤ → ℂ) → Moments) : Prop where
  ok : p.Ok
  beta_eq : p.beta = beta
  freqs : p.freqs = wIndices .fermion N
  data : ∀ w ∈ wIndices .fermion N, ∀ k a b, p.g w k a b = coeff .fermion beta (fun tau => g tau k a b) w
  toTau : p.toTau = toTauFit .fermion beta p.L N fit
  four : p.four = toFreqFit .boson beta p.L nw
  pos : 0 < N
  long : 2 * N ≤ p.L
  nine : 8 ≤ p.L
  /-- the fit of the tail finds the moments -/
  moments : ∀ r a b, MomentsOk .fermion beta e N (fun tau => realSpace g tau r a b) (fit fun w => p.gWr w r a b)

theorem gWr_window {p : Lattice n o} {beta e : ℝ} {g : ℝ → Lat n → o → o → ℂ} {N nw : ℕ} {fit : (ℤ → ℂ) → Moments}
    (h : TimeRoute p beta e g N nw fit) (hg : ∀ k a b, Continuous fun tau => g tau k a b) (w : ℤ) (hw : w ∈ wIndices .fermion N)
    (r : Lat n) (a b : o) : p.gWr w r a b = coeff .fermion beta (fun tau => realSpace g tau r a b) w := by
  have e1 : p.gWr w = kToR (p.g w) := by
    rw [Lattice.gWr, fourierWkToWr, h.freqs, C02_distributedAssign p.ranks h.ok.ranks _ (wIndices_nodup _ _), if_pos hw]
  unfold realSpace
  rw [e1, Gw.kToR_apply2, coeff_kToR .fermion beta (fun tau k => g tau k a b) (fun k => hg k a b)]
  simp only [h.data w hw]

/-- one lattice vector of the bubble in time, for all meshes -/
theorem chi0t_close (beta : ℝ) (hb : 0 < beta) (e : ℝ) (he : 0 ≤ e) (g : ℝ → Lat n → o → o → ℂ)
    (hg : ∀ k a b, ContDiff ℝ 9 fun tau => g tau k a b) (r : Lat n) (a b c f : o) :
    ∃ C, 0 ≤ C ∧ ∀ (p : Lattice n o) (N nw : ℕ) (fit : (ℤ → ℂ) → Moments), TimeRoute p beta e g N nw fit → ∀ t ≤ p.L,
      ‖chi0tPoint p.L p.gTr r t a b c f - realSpace g (tauOf beta p.L t) r f a * realSpace g (beta - tauOf beta p.L t) (-r) b c‖
        ≤ C * (1 / (N : ℝ) ^ 2) := by
  have hs : ∀ r a b, ContDiff ℝ 9 fun tau => realSpace g tau r a b := fun r a b => contDiff_kToR _ (fun k => hg k a b) r
  obtain ⟨C, hC, h⟩ := product_ok .fermion .fermion beta hb e he _ _ ((hs r f a).of_le (by norm_num)) ((hs (-r) b c).of_le (by norm_num))
  refine ⟨2 * C, by positivity, fun p N nw fit hp t ht => ?_⟩
  have hLpos : (0 : ℝ) < p.L := by exact_mod_cast (by have := hp.nine; omega : 0 < p.L)
  obtain ⟨x, y, hx, hy, hxy⟩ := h p.L N N _ _ hp.pos hp.pos hp.long hp.long (hp.moments r f a) (hp.moments (-r) b c)
  have hgc : ∀ k a b, Continuous fun tau => g tau k a b := fun k a b => (hg k a b).continuous
  have val : ∀ r a b z, wToTau .fermion beta p.L N (fit fun w => p.gWr w r a b).m1 (fit fun w => p.gWr w r a b).m2
      (fit fun w => p.gWr w r a b).m3 (coeff .fermion beta fun tau => realSpace g tau r a b) = .ok z →
      ∀ t, p.gTr t r a b = z t := by
    intro r a b z hz t
    rw [Lattice.gTr, hp.toTau, toTauFit, wToTau_congr _ _ _ _ _ _ _ _ _ fun w hw => gWr_window hp hgc w hw r a b, hz]
    rfl
  rw [chi0tPoint, val r f a x hx, val (-r) b c y hy]
  have e1 : tauOf beta p.L (p.L - t) = beta - tauOf beta p.L t := by
    rw [tauOf, tauOf, Nat.cast_sub ht]
    field_simp
  have h2 := hxy t (p.L - t) ht (Nat.sub_le _ _)
  rw [e1] at h2
  refine h2.trans (le_of_eq (by ring))

/-- C115: the bubble of `imtime_bubble_chi0_wk` converges to the exact one at every bosonic frequency, with and without saving of
memory, and for a single frequency (by the trapezoidal rule) as for several (by Fourier transform). -/
theorem C115_bubble (beta : ℝ) (hb : 0 < beta) (e : ℝ) (he : 0 ≤ e) (g : ℝ → Lat n → o → o → ℂ)
    (hg : ∀ k a b, ContDiff ℝ 9 fun tau => g tau k a b) (m : ℤ) (q : Lat n) (a b c f : o) :
    ∃ C, 0 ≤ C ∧ ∀ (p : Lattice n o) (N nw : ℕ) (fit : (ℤ → ℂ) → Moments) (save : Bool) (chi : ℤ → Lat n → Bubble.T4 o),
      TimeRoute p beta e g N nw fit → p.timeBubble nw save = .ok chi → m ∈ (p.bosons nw).indices →
      ‖chi m q a b c f - exactBubble beta g m q a b c f‖ ≤ C / (N : ℝ) ^ 2 := by
  have hs : ∀ r a b, ContDiff ℝ 9 fun tau => realSpace g tau r a b := fun r a b => contDiff_kToR _ (fun k => hg k a b) r
  have hP : ∀ r, ContDiff ℝ 9 fun tau => realSpace g tau r f a * realSpace g (beta - tau) (-r) b c := fun r =>
    (hs r f a).mul ((hs (-r) b c).comp (contDiff_const.sub contDiff_id))
  have hex : exactBubble beta g m q a b c f
      = rToK (fun r => coeff .boson beta (fun tau => realSpace g tau r f a * realSpace g (beta - tau) (-r) b c) m) q :=
    coeff_rToK .boson beta _ (fun r => (hP r).continuous) q m
  choose C1 hC1 h1 using fun r => chi0t_close beta hb e he g hg r a b c f
  choose C2 hC2 h2 using fun r => C115_close .boson beta hb _ (hP r) m
  choose C3 hC3 h3 using fun r => trapezoid_close beta hb _ ((hP r).of_le (by norm_num : (2 : WithTop ℕ∞) ≤ 9))
  refine ⟨∑ r, (C2 r + C3 r) * (C1 r + 1), Finset.sum_nonneg fun r _ => ?_, fun p N nw fit save chi hp hchi hm => ?_⟩
  · have := hC1 r
    have := hC2 r
    have := hC3 r
    positivity
  have hNpos : (0 : ℝ) < N := by exact_mod_cast hp.pos
  have hLq : 1 / (p.L : ℝ) ^ 2 ≤ 1 / (N : ℝ) ^ 2 := by
    have h3 : (N : ℝ) ≤ p.L := by exact_mod_cast (by have := hp.long; omega : N ≤ p.L)
    gcongr
  have hx : ∀ r, ∀ t ≤ p.L, ‖chi0tPoint p.L p.gTr r t a b c f
      - realSpace g (tauOf beta p.L t) r f a * realSpace g (beta - tauOf beta p.L t) (-r) b c‖ ≤ C1 r * (1 / (N : ℝ) ^ 2) :=
    fun r => h1 r p N nw fit hp
  have fin : ∀ r, ∀ K, 0 ≤ K → K ≤ C2 r + C3 r → K * (C1 r * (1 / (N : ℝ) ^ 2) + 1 / (p.L : ℝ) ^ 2)
      ≤ (C2 r + C3 r) * (C1 r + 1) * (1 / (N : ℝ) ^ 2) := by
    intro r K hK hK2
    have c1 := hC1 r
    have hsum : C1 r * (1 / (N : ℝ) ^ 2) + 1 / (p.L : ℝ) ^ 2 ≤ (C1 r + 1) * (1 / (N : ℝ) ^ 2) := by
      rw [add_mul, one_mul]
      linarith
    calc _ ≤ (C2 r + C3 r) * ((C1 r + 1) * (1 / (N : ℝ) ^ 2)) :=
          mul_le_mul hK2 hsum (by positivity) (hK.trans hK2)
      _ = _ := by ring
  have efin : (∑ r, (C2 r + C3 r) * (C1 r + 1)) / (N : ℝ) ^ 2 = ∑ r, (C2 r + C3 r) * (C1 r + 1) * (1 / (N : ℝ) ^ 2) := by
    rw [div_eq_mul_one_div, Finset.sum_mul]
  rw [efin, hex]
  by_cases hnw : nw = 1
  · subst hnw
    have hm0 : m = 0 := by
      rw [Lattice.bosons, mem_indices_boson] at hm
      omega
    subst hm0
    rw [timeBubble_one p hp.ok save chi hchi, Lattice.bubbleStatic, Herm.rToK_apply4, rToK_sub']
    refine norm_rToK_le _ _ _ fun r => ?_
    have hLpos : 0 < p.L := by have := hp.nine; omega
    have h4 := h3 r p.L (fun t => chi0tPoint p.L p.gTr r t a b c f) _ hLpos (hx r)
    have e4 : trapz (p.beta : ℂ) p.L (chi0tPoint p.L p.gTr r) a b c f
        = (beta / p.L : ℝ) * (∑ t ∈ Finset.range p.L, chi0tPoint p.L p.gTr r t a b c f
          + (chi0tPoint p.L p.gTr r p.L a b c f - chi0tPoint p.L p.gTr r 0 a b c f) / 2) := by
      rw [trapz, hp.beta_eq, Finset.sum_range_succ]
      simp only [Pi.smul_apply, Pi.sub_apply, Pi.add_apply, Finset.sum_apply, smul_eq_mul]
      push_cast
      ring
    rw [e4]
    exact h4.trans (fin r (C3 r) (hC3 r) (by have := hC2 r; linarith))
  · have hlong : 2 * nw ≤ p.L := by
      by_contra hcon
      unfold Lattice.timeBubble at hchi
      rw [if_neg hnw, if_pos (by omega)] at hchi
      cases hchi
    rw [timeBubble_many p hp.ok nw save chi hnw hchi m hm, Lattice.bubbleAt, Herm.rToK_apply4, rToK_sub']
    refine norm_rToK_le _ _ _ fun r => ?_
    obtain ⟨xw, hxw, h4⟩ := h2 r p.L nw (fun t => chi0tPoint p.L p.gTr r t a b c f) _ hp.nine hlong (hx r)
    have e4 : p.four (fun t => chi0tPoint p.L p.gTr r t a b c f) m = xw m := by
      rw [hp.four, toFreqFit, hxw]
      rfl
    rw [e4]
    exact h4.trans (fin r (C2 r) (hC2 r) (by have := hC3 r; linarith))

/-! ## Sums of poles and non-interacting systems -/

/-- a Green's function with finitely many poles in imaginary time -/
def polesTime (p : Poles n o) (beta : ℝ) : ℝ → Lat n → o → o → ℂ := fun tau k a b => p.time beta tau k a b

theorem contDiff_poles (p : Poles n o) (beta : ℝ) (k : Lat n) (a b : o) : ContDiff ℝ 9 fun tau => polesTime p beta tau k a b := by
  unfold polesTime Poles.time
  refine ContDiff.sum fun l _ => contDiff_const.mul ?_
  unfold Lindhard.freeTau
  have h : ContDiff ℝ 9 fun tau : ℝ => -(1 - Lindhard.fermi (p.eps k l * beta)) * Real.exp (-p.eps k l * tau) := by fun_prop
  exact Complex.ofRealCLM.contDiff.comp h

theorem exactBubble_poles {ranks : ℕ} (hr : 0 < ranks) (beta : ℝ) {rmesh : List (Lat n)} (hnd : rmesh.Nodup) (hall : ∀ r, r ∈ rmesh)
    (p : Poles n o) (m : ℤ) (q : Lat n) : exactBubble beta (polesTime p beta) m q = imtimeRoute ranks beta rmesh p m q := by
  funext a b c f
  unfold exactBubble imtimeRoute
  congr 1
  funext t
  congr 2
  funext r
  have h := C02_distributedAssign ranks hr rmesh hnd (fun r => chi0tDlrPoint beta (p.timeR beta) r) r
  rw [chi0trDlr, h, if_pos (hall r)]
  rfl

/-- C115: for a Green's function given by poles, at every momentum, the bubble converges to the closed form in terms of the poles. -/
theorem C115_poles (beta : ℝ) (hb : 0 < beta) (e : ℝ) (he : 0 ≤ e) (G : Poles n o) (m : ℤ) (q : Lat n) (a b c f : o) :
    ∃ C, 0 ≤ C ∧ ∀ (p : Lattice n o) (N nw : ℕ) (fit : (ℤ → ℂ) → Moments) (save : Bool) (chi : ℤ → Lat n → Bubble.T4 o),
      TimeRoute p beta e (polesTime G beta) N nw fit → p.timeBubble nw save = .ok chi → m ∈ (p.bosons nw).indices →
      ‖chi m q a b c f - (Fintype.card (Lat n) : ℂ)⁻¹ * ∑ k, ∑ l, ∑ l', G.res k l f a * G.res (k - q) l' b c
        * pairFactor beta m (G.eps k l) (G.eps (k - q) l')‖ ≤ C / (N : ℝ) ^ 2 := by
  obtain ⟨C, hC, h⟩ := C115_bubble beta hb e he (polesTime G beta) (contDiff_poles G beta) m q a b c f
  refine ⟨C, hC, fun p N nw fit save chi hp hchi hm => ?_⟩
  have h1 := h p N nw fit save chi hp hchi hm
  rwa [exactBubble_poles hp.ok.ranks beta hp.ok.nodup hp.ok.all, imtimeRoute_eq hp.ok.ranks beta hp.ok.nodup hp.ok.all] at h1

/-- C115: the bubble of non-interacting electrons with time reversal symmetry from imaginary time converges to the Lindhard
function of `lindhard_chi00`. -/
theorem C115_lindhard {ranks : ℕ} (hr : 0 < ranks) (eig : Lindhard.Eig o) (hs : Lindhard.EigSpec eig) (tol beta mu : ℝ) (hb : 0 < beta)
    (ht : 0 < tol) (err : ℝ) (herr : 0 ≤ err) (kmesh : List (Lat n)) (hnd : kmesh.Nodup) (hall : ∀ k, k ∈ kmesh)
    (e : Lat n → Matrix o o ℂ) (hE : ∀ k, (e k).IsHermitian) (htr : Lindhard.TimeReversal e) (m : ℤ)
    (htolm : ‖matsubara .boson beta m‖ < tol → m = 0)
    (hsep : ∀ k k' i j, |(Lindhard.sys eig mu e k').1 j - (Lindhard.sys eig mu e k).1 i| < tol →
      (Lindhard.sys eig mu e k').1 j = (Lindhard.sys eig mu e k).1 i) (q : Lat n) (a b c f : o) :
    ∃ C, 0 ≤ C ∧ ∀ (p : Lattice n o) (N nw : ℕ) (fit : (ℤ → ℂ) → Moments) (save : Bool) (chi : ℤ → Lat n → Bubble.T4 o),
      TimeRoute p beta err (polesTime (Poles.bands eig mu e) beta) N nw fit → p.timeBubble nw save = .ok chi →
      m ∈ (p.bosons nw).indices →
      ‖chi m q a b c f - Lindhard.lindhard ranks eig tol beta mu kmesh e (matsubara .boson beta m) q a b c f‖ ≤ C / (N : ℝ) ^ 2 := by
  obtain ⟨C, hC, h⟩ := C115_bubble beta hb err herr (polesTime (Poles.bands eig mu e) beta) (contDiff_poles _ beta) m q a b c f
  refine ⟨C, hC, fun p N nw fit save chi hp hchi hm => ?_⟩
  have h1 := h p N nw fit save chi hp hchi hm
  rw [exactBubble_poles hp.ok.ranks beta hp.ok.nodup hp.ok.all, bands_route hp.ok.ranks eig beta mu hp.ok.nodup hp.ok.all] at h1
  rwa [Lindhard.C21_equals_imaginary_time_bubble_partial ranks hr eig hs tol beta mu hb ht kmesh hnd hall e hE htr m htolm q a b c f hsep]

/-! ## An example -/

/-- one level with energy `x` -/
def oneLevel (x : ℝ) : Poles (fun _ : Fin 1 => 1) Unit where
  L := Unit
  eps := fun _ _ => x
  res := fun _ _ _ _ => 1

/-- the moments of the level -/
def levelFit (x beta : ℝ) : (ℤ → ℂ) → Moments := fun _ =>
  exactMoments .fermion beta fun tau => realSpace (polesTime (oneLevel x) beta) tau 0 () ()

/-- its Green's function on a mesh with `N` positive frequencies -/
def levelLattice (x beta : ℝ) (N nw : ℕ) : Lattice (fun _ : Fin 1 => 1) Unit where
  ranks := 2
  lat := [0]
  beta := beta
  freqs := wIndices .fermion N
  g := fun w k a b => coeff .fermion beta (fun tau => polesTime (oneLevel x) beta tau k a b) w
  L := 6 * (N + nw) + 8
  toTau := toTauFit .fermion beta (6 * (N + nw) + 8) N (levelFit x beta)
  four := toFreqFit .boson beta (6 * (N + nw) + 8) nw
  ext := fun x => x

/-- the hypotheses of `C115_bubble` hold for every mesh -/
example (x beta : ℝ) (hb : 0 < beta) (N nw : ℕ) (hN : 0 < N) (save : Bool) :
    TimeRoute (levelLattice x beta N nw) beta 0 (polesTime (oneLevel x) beta) N nw (levelFit x beta) ∧
      ∃ chi, (levelLattice x beta N nw).timeBubble nw save = .ok chi := by
  have hk : ∀ r : Lat (fun _ : Fin 1 => 1), r = 0 := fun r => funext fun i => Subsingleton.elim (r i) 0
  refine ⟨⟨⟨by norm_num [levelLattice], List.nodup_singleton _, fun r => ?_, hb.ne'⟩, rfl, rfl, fun _ _ _ _ _ => rfl, rfl, rfl, hN, ?_, ?_,
    fun r a b => ?_⟩, ?_⟩
  · rw [hk r]
    exact List.mem_singleton_self _
  · simp only [levelLattice]
    omega
  · simp only [levelLattice]
    omega
  · rw [hk r]
    cases a
    cases b
    simp [MomentsOk, levelFit]
  · unfold Lattice.timeBubble
    by_cases h : nw = 1
    · rw [if_pos h]
      exact ⟨_, rfl⟩
    · rw [if_neg h, if_neg (by simp only [levelLattice]; omega)]
      exact ⟨_, rfl⟩

end Verif.Bse
