import Verif.Gw.SolverFixed

/-!
# C90: the switch `spinless`

`solve_iter(spinless=True)` (`/repo/python/triqs_tprf/gw_solver.py:236-241`) doubles the polarisation in the screened
interaction.  Compared with the calculation in which spin is an explicit index and the interaction does not depend on it.
-/

set_option linter.unusedSectionVars false

noncomputable section

namespace Verif.Gw

open Complex Verif.Parallel Verif.Fourier Verif.Bubble Verif.Dyson Verif.Rpa

variable {d : ℕ} {n : Fin d → ℕ} [∀ i, NeZero (n i)] {o : Type} [Fintype o] [DecidableEq o]

/-! ## Specification: spin as an index -/

/-- the same for both spins, no mixing -/
def diagS (x : o → o → ℂ) : o × Bool → o × Bool → ℂ := fun a b => if a.2 = b.2 then x a.1 b.1 else 0

/-- interaction `c†_{aσ} c_{bσ} c†_{cτ} c_{dτ}` between all spins -/
def chS (V : Bubble.T4 o) : Bubble.T4 (o × Bool) := fun a b c d =>
  if a.2 = b.2 ∧ c.2 = d.2 then V a.1 b.1 c.1 d.1 else 0

/-- bubble of two propagators `d → a` and `b → c` that keep their spins -/
def exS (P : Bubble.T4 o) : Bubble.T4 (o × Bool) := fun a b c d =>
  if d.2 = a.2 ∧ b.2 = c.2 then P a.1 b.1 c.1 d.1 else 0

/-- Green's function with spin -/
def spinG (g : G n o) : G n (o × Bool) := fun w k => diagS (g w k)

/-- the model with spin as an index -/
def doubled (p : SolverParams n o) : SolverParams n (o × Bool) where
  ranks := p.ranks
  lat := p.lat
  freqs := p.freqs
  bfreqs := p.bfreqs
  nw := p.nw
  beta := p.beta
  L := p.L
  val := p.val
  pieces := p.pieces
  boseFreq := p.boseFreq
  e := fun k => Matrix.of (diagS (p.e k))
  V := fun k => chS (p.V k)
  nFix := p.nFix
  bracket := p.bracket
  brentq := p.brentq

/-- the transforms of the zero function are zero, and so is its density -/
structure ZeroPieces (p : SolverParams n o) : Prop where
  gToTau : ∀ t, p.pieces.gToTau (fun _ => 0) t = 0
  wToTau : ∀ t, p.pieces.wToTau (fun _ => 0) t = 0
  toFreq : ∀ w, p.pieces.toFreq (fun _ => 0) w = 0
  boseFreq : ∀ w, p.boseFreq (fun _ => 0) w = 0
  dens : p.pieces.dens (fun _ => 0) = 0

/-! ## Steps -/

variable {p : SolverParams n o}

theorem doubled_good (hm : GoodMeshes p) : GoodMeshes (doubled p) := ⟨hm.ranks, hm.lat, hm.freqs, hm.bfreqs⟩

theorem kToR_zero (r : Lat n) : kToR (fun _ : Lat n => (0 : ℂ)) r = 0 := by
  simp [kToR, fftw]

theorem rToK_zero (r : Lat n) : rToK (fun _ : Lat n => (0 : ℂ)) r = 0 := by
  simp [rToK, fftw]

theorem gTimeSpace_spin (hz : ZeroPieces p) (g : G n o) (t : ℕ) (r : Lat n) :
    gTimeSpace (doubled p) (spinG g) t r = diagS (gTimeSpace p g t r) := by
  funext a b
  unfold gTimeSpace spinG diagS
  by_cases h : a.2 = b.2
  · simp only [h, if_true]; rfl
  · simp only [h, if_false, kToR_zero]
    exact hz.gToTau t

theorem rhoSpec_spin (hz : ZeroPieces p) (g : G n o) (k : Lat n) :
    rhoSpec (doubled p) (spinG g) k = diagS (rhoSpec p g k) := by
  funext a b
  unfold rhoSpec spinG diagS
  by_cases h : a.2 = b.2
  · simp only [h, if_true]; rfl
  · have h' : ¬ b.2 = a.2 := fun e => h e.symm
    simp only [h, h', if_false]
    exact hz.dens

theorem chi0tPoint_spin (L : ℕ) (g : ℕ → Lat n → o → o → ℂ) (r : Lat n) (t : ℕ) :
    chi0tPoint L (fun t r => diagS (g t r)) r t = exS (chi0tPoint L g r t) := by
  funext a b c d
  unfold chi0tPoint diagS exS
  by_cases h : d.2 = a.2 <;> by_cases h' : b.2 = c.2 <;> simp [h, h']

theorem rToK_exS (f : Lat n → Bubble.T4 o) (k : Lat n) : rToK (fun r => exS (f r)) k = exS (rToK f k) := by
  funext a b c d
  unfold exS
  rw [rToK_apply4]
  by_cases h : d.2 = a.2 ∧ b.2 = c.2
  · simp only [h, and_self, if_true, rToK_apply4]
  · simp only [h, if_false, rToK_zero]

theorem trapz_exS (beta : ℂ) (L : ℕ) (f : ℕ → Bubble.T4 o) :
    trapz beta L (fun t => exS (f t)) = exS (trapz beta L f) := by
  funext a b c d
  unfold trapz
  simp only [Pi.smul_apply, Pi.sub_apply, Finset.sum_apply, exS]
  by_cases h : d.2 = a.2 ∧ b.2 = c.2 <;> simp [h]

theorem polarization_spin (hm : GoodMeshes p) (hz : ZeroPieces p) (g : G n o) (w : ℤ) (k : Lat n) :
    (doubled p).polarization (spinG g) w k = exS (p.polarization g w k) := by
  have hg : (doubled p).gTr (spinG g) = fun t r => diagS (p.gTr g t r) := by
    funext t r
    rw [gTr_eq, gTr_eq, gTimeSpace_spin hz]
  have hneg : ∀ T : Bubble.T4 o, exS (-T) = -exS T := fun T => by
    funext a b c d
    simp only [exS, Pi.neg_apply]
    split_ifs <;> simp
  have hrhs : p.polarization g w k = -p.chi0 g w k := rfl
  have hlhs : (doubled p).polarization (spinG g) w k = -(doubled p).chi0 (spinG g) w k := rfl
  rw [hrhs, hlhs, hneg]
  congr 1
  unfold SolverParams.chi0
  change (if p.nw = 1 then _ else _ : ℤ → Lat n → Bubble.T4 (o × Bool)) w k = _
  by_cases hnw : p.nw = 1
  · rw [if_pos hnw, if_pos hnw]
    by_cases hw : w = 0
    · simp only [hw, if_true]
      unfold chi0W0r
      change rToK (distributedAssign p.ranks p.lat _) k = _
      rw [hm.lat.assign hm.ranks, hm.lat.assign hm.ranks, ← rToK_exS]
      congr 1
      funext r
      rw [← trapz_exS]
      change trapz (p.beta : ℂ) p.L _ = _
      congr 1
      funext t
      rw [hg]
      exact chi0tPoint_spin _ _ _ _
    · simp only [hw, if_false]
      funext a b c d
      simp [exS]
  · rw [if_neg hnw, if_neg hnw, ← rToK_exS]
    congr 1
    funext r a b c d
    change p.boseFreq (fun t => chi0tr p.ranks p.L p.lat ((doubled p).gTr (spinG g)) r t a b c d) w = _
    unfold chi0tr
    rw [hm.lat.assign hm.ranks, hm.lat.assign hm.ranks, hg]
    simp only [chi0tPoint_spin]
    unfold exS
    by_cases h : d.2 = a.2 ∧ b.2 = c.2
    · simp only [h, and_self, if_true]
    · simp only [h, if_false]
      exact hz.boseFreq w

/-- pairs of orbitals with the same spin -/
def spinPair : Matrix ((o × Bool) × (o × Bool)) (o × o) ℂ := fun x y =>
  if x.1.2 = x.2.2 ∧ x.1.1 = y.1 ∧ x.2.1 = y.2 then 1 else 0

theorem chS_pair (V : Bubble.T4 o) : pairMat (chS V) = spinPair * pairMat V * spinPair.transpose := by
  ext ⟨⟨a, s⟩, ⟨b, s'⟩⟩ ⟨⟨c, t⟩, ⟨d, t'⟩⟩
  rw [Matrix.mul_apply, Fintype.sum_eq_single (c, d)]
  · rw [Matrix.mul_apply, Fintype.sum_eq_single (a, b)]
    · simp only [pairMat, chS, spinPair, Matrix.transpose_apply]
      by_cases h : s = s' <;> by_cases h' : t = t' <;> simp [h, h']
    · rintro ⟨x, y⟩ hne
      rw [spinPair, if_neg, zero_mul]
      rintro ⟨-, rfl, rfl⟩
      exact hne rfl
  · rintro ⟨x, y⟩ hne
    rw [Matrix.transpose_apply, spinPair, if_neg, mul_zero]
    rintro ⟨-, rfl, rfl⟩
    exact hne rfl

theorem exS_pair (P : Bubble.T4 o) :
    spinPair.transpose * pairMat (exS P) * spinPair = pairMat ((2 : ℂ) • P) := by
  ext ⟨a, b⟩ ⟨c, d⟩
  simp only [Matrix.mul_apply, Matrix.transpose_apply, spinPair, pairMat, exS, Fintype.sum_prod_type,
    Fintype.sum_bool, ite_and, ite_mul, mul_ite, zero_mul, one_mul, mul_zero, mul_one, Finset.sum_ite_irrel,
    Finset.sum_const_zero, Finset.sum_ite_eq, Finset.sum_ite_eq', Finset.mem_univ, if_true]
  simp [two_mul]

theorem push_rect {l m : Type*} [Fintype l] [DecidableEq l] [Fintype m] [DecidableEq m] (X : Matrix l l ℂ)
    (T : Matrix l m ℂ) (Y : Matrix m m ℂ) (e : X * T = T * Y) (hX : IsUnit X.det) (hY : IsUnit Y.det) :
    T * Y⁻¹ = X⁻¹ * T := by
  calc T * Y⁻¹ = X⁻¹ * (X * T) * Y⁻¹ := by rw [← Matrix.mul_assoc, Matrix.nonsing_inv_mul _ hX, Matrix.one_mul]
    _ = X⁻¹ * T := by rw [e, Matrix.mul_assoc, Matrix.mul_assoc, Matrix.mul_nonsing_inv _ hY, Matrix.mul_one]

theorem screened_spin (P V : Bubble.T4 o) :
    screenedOptPoint (exS P) (chS V) = chS (screenedOptPoint ((2 : ℂ) • P) V) := by
  rw [C17_paths_agree, C17_paths_agree]
  have hinj : Function.Injective (pairMat : Bubble.T4 (o × Bool) → _) := fun x y h => by
    funext a b c d
    exact congrFun (congrFun h (a, b)) (c, d)
  apply hinj
  rw [chS_pair, screenedBubblePoint, screenedBubblePoint, pairMat_matTensor, pairMat_matTensor, ← exS_pair, chS_pair]
  set A := (spinPair : Matrix ((o × Bool) × (o × Bool)) (o × o) ℂ)
  set Q := pairMat (exS P)
  set U := pairMat V
  have hdet : (1 - Q * (A * U * A.transpose)).det = (1 - A.transpose * Q * A * U).det := by
    rw [show Q * (A * U * A.transpose) = (Q * A * U) * A.transpose by simp only [Matrix.mul_assoc],
      Matrix.det_one_sub_mul_comm]
    simp only [Matrix.mul_assoc]
  by_cases h : IsUnit (1 - A.transpose * Q * A * U).det
  · have h' : IsUnit (1 - Q * (A * U * A.transpose)).det := by rwa [hdet]
    have hpush : A.transpose * (1 - Q * (A * U * A.transpose))⁻¹ = (1 - A.transpose * Q * A * U)⁻¹ * A.transpose := by
      have e : (1 - A.transpose * Q * A * U) * A.transpose = A.transpose * (1 - Q * (A * U * A.transpose)) := by
        rw [Matrix.sub_mul, Matrix.mul_sub, Matrix.one_mul, Matrix.mul_one]
        simp only [Matrix.mul_assoc]
      exact push_rect _ _ _ e h h'
    rw [Matrix.mul_assoc (A * U), hpush]
    simp only [Matrix.mul_assoc]
  · have h' : ¬ IsUnit (1 - Q * (A * U * A.transpose)).det := by rwa [hdet]
    rw [Matrix.nonsing_inv_apply_not_isUnit _ h, Matrix.nonsing_inv_apply_not_isUnit _ h']
    simp

theorem sum_spin (f : o × Bool → o × Bool → ℂ) (h : o → o → ℂ) (s t : Bool)
    (hf : ∀ c e, f c e = if s = c.2 ∧ e.2 = t ∧ c.2 = e.2 then h c.1 e.1 else 0) :
    ∑ c, ∑ e, f c e = if s = t then ∑ c, ∑ e, h c e else 0 := by
  simp only [hf, Fintype.sum_prod_type, Fintype.sum_bool]
  cases s <;> cases t <;> simp

theorem fock_spin (hz : ZeroPieces p) (g : G n o) (k : Lat n) :
    fockSpec (doubled p) (spinG g) k = diagS (fockSpec p g k) := by
  funext a b
  unfold fockSpec
  have : ∀ q, ∑ c, ∑ e, (doubled p).V q a c e b * rhoSpec (doubled p) (spinG g) (k - q) e c
      = if a.2 = b.2 then ∑ c, ∑ e, p.V q a.1 c e b.1 * rhoSpec p g (k - q) e c else 0 := by
    intro q
    refine sum_spin _ (fun c e => p.V q a.1 c e b.1 * rhoSpec p g (k - q) e c) _ _ fun c e => ?_
    rw [rhoSpec_spin hz]
    change chS (p.V q) a c e b * _ = _
    unfold chS diagS
    rcases a with ⟨a, s⟩; rcases b with ⟨b, t⟩; rcases c with ⟨c, u⟩; rcases e with ⟨e, v⟩
    cases s <;> cases t <;> cases u <;> cases v <;> simp
  simp only [this]
  unfold diagS
  by_cases h : a.2 = b.2
  · simp only [h, if_true]
  · simp only [h, if_false, Finset.sum_const_zero, mul_zero, neg_zero]

theorem hartree_spin (hz : ZeroPieces p) (g : G n o) :
    hartreeSpec (doubled p) (spinG g) = diagS fun a b => 2 * hartreeSpec p g a b := by
  funext a b
  unfold hartreeSpec
  simp only [rhoSpec_spin hz, Fintype.sum_prod_type, Fintype.sum_bool]
  change ∑ c, (∑ e, (chS (p.V 0) _ _ _ _ * _ + chS (p.V 0) _ _ _ _ * _)
    + ∑ e, (chS (p.V 0) _ _ _ _ * _ + chS (p.V 0) _ _ _ _ * _)) = _
  unfold chS diagS
  by_cases h : a.2 = b.2
  · simp only [h, Bool.true_eq_false, Bool.false_eq_true, and_false, and_true, if_true, if_false, zero_mul, add_zero,
      zero_add, two_mul, Finset.sum_add_distrib]
  · simp only [h, false_and, if_false, zero_mul, add_zero, Finset.sum_const_zero]

theorem dyn_spin (hz : ZeroPieces p) (W : ℤ × Lat n → Bubble.T4 o) (g : G n o) (w : ℤ) (k : Lat n) :
    dynSpec (doubled p) (fun x => chS (W x)) (spinG g) w k = diagS (dynSpec p W g w k) := by
  funext a b
  unfold dynSpec
  have hW : ∀ t r c e, (doubled p).pieces.wToTau (fun v => kToR (fun q => if v ∈ (doubled p).bfreqs then
        chS (W (v, q)) a c e b - (doubled p).V q a c e b else 0) r) t
      = if a.2 = c.2 ∧ e.2 = b.2 then p.pieces.wToTau (fun v => kToR (fun q => if v ∈ p.bfreqs then
        W (v, q) a.1 c.1 e.1 b.1 - p.V q a.1 c.1 e.1 b.1 else 0) r) t else 0 := by
    intro t r c e
    change p.pieces.wToTau (fun v => kToR (fun q => if v ∈ p.bfreqs then
        chS (W (v, q)) a c e b - chS (p.V q) a c e b else 0) r) t = _
    unfold chS
    by_cases h : a.2 = c.2 ∧ e.2 = b.2
    · simp only [h, and_self, if_true]
    · simp only [h, if_false, sub_zero, ite_self, kToR_zero]
      exact hz.wToTau t
  have hs : ∀ t r, ∑ c, ∑ e, (doubled p).pieces.wToTau (fun v => kToR (fun q => if v ∈ (doubled p).bfreqs then
        chS (W (v, q)) a c e b - (doubled p).V q a c e b else 0) r) t * gTimeSpace (doubled p) (spinG g) t r c e
      = if a.2 = b.2 then ∑ c, ∑ e, p.pieces.wToTau (fun v => kToR (fun q => if v ∈ p.bfreqs then
        W (v, q) a.1 c e b.1 - p.V q a.1 c e b.1 else 0) r) t * gTimeSpace p g t r c e else 0 := by
    intro t r
    refine sum_spin _ (fun c e => p.pieces.wToTau (fun v => kToR (fun q => if v ∈ p.bfreqs then
        W (v, q) a.1 c e b.1 - p.V q a.1 c e b.1 else 0) r) t * gTimeSpace p g t r c e) _ _ fun c e => ?_
    rw [hW, gTimeSpace_spin hz]
    unfold diagS
    rcases a with ⟨a, s⟩; rcases b with ⟨b, t⟩; rcases c with ⟨c, u⟩; rcases e with ⟨e, v⟩
    cases s <;> cases t <;> cases u <;> cases v <;> simp
  simp only [hs]
  unfold diagS
  by_cases h : a.2 = b.2
  · simp only [h, if_true]; rfl
  · simp only [h, if_false, neg_zero, ite_self]
    have : (fun _ : Lat n => (doubled p).pieces.toFreq (fun _ => 0) w) = fun _ => 0 := by
      funext r
      exact hz.toFreq w
    rw [this, rToK_zero]

theorem diagS_inv (M : Matrix o o ℂ) : (Matrix.of (diagS M))⁻¹ = Matrix.of (diagS (M⁻¹ : Matrix o o ℂ)) := by
  have hb : ∀ X : Matrix o o ℂ, Matrix.of (diagS X) = Matrix.blockDiagonal fun _ : Bool => X := by
    intro X
    ext ⟨a, s⟩ ⟨b, t⟩
    rw [Matrix.blockDiagonal_apply]
    rfl
  rw [hb, hb]
  by_cases h : IsUnit M.det
  · apply Matrix.inv_eq_right_inv
    rw [← Matrix.blockDiagonal_mul]
    have : (fun _ : Bool => M * M⁻¹) = 1 := by
      funext _
      exact Matrix.mul_nonsing_inv _ h
    rw [this, Matrix.blockDiagonal_one]
  · have h' : ¬ IsUnit (Matrix.blockDiagonal fun _ : Bool => M).det := by
      rw [Matrix.det_blockDiagonal]
      simp only [Finset.prod_const, Finset.card_univ, Fintype.card_bool]
      intro hu
      exact h ((isUnit_pow_iff two_ne_zero).1 hu)
    rw [Matrix.nonsing_inv_apply_not_isUnit _ h, Matrix.nonsing_inv_apply_not_isUnit _ h']
    ext ⟨a, s⟩ ⟨b, t⟩
    rw [Matrix.blockDiagonal_apply]
    simp

theorem dispatch_spin (hm : GoodMeshes p) (mu : ℝ) (S : ℤ → Lat n → o → o → ℂ) :
    (doubled p).dispatch mu (some fun w k => diagS (S w k)) = spinG (p.dispatch mu (some S)) := by
  funext w k
  unfold spinG
  by_cases hw : w ∈ p.freqs
  · have h1 := dispatch_some (doubled_good hm) mu (fun w k => diagS (S w k)) w hw k
    have h2 := dispatch_some hm mu S w hw k
    have h3 : ((doubled p).val w + 0 + (mu : ℂ)) • (1 : Matrix (o × Bool) (o × Bool) ℂ) - (doubled p).e k
        - Matrix.of (diagS (S w k)) = Matrix.of (diagS
          ((p.val w + 0 + (mu : ℂ)) • (1 : Matrix o o ℂ) - p.e k - Matrix.of (S w k))) := by
      ext ⟨a, s⟩ ⟨b, t⟩
      simp only [doubled, Matrix.sub_apply, Matrix.smul_apply, Matrix.of_apply, diagS, Matrix.one_apply, Prod.mk.injEq]
      by_cases h : s = t <;> simp [h]
    rw [h3, diagS_inv] at h1
    have h4 : (doubled p).dispatch mu (some fun w k => diagS (S w k)) w k = diagS
      (((p.val w + 0 + (mu : ℂ)) • (1 : Matrix o o ℂ) - p.e k - Matrix.of (S w k))⁻¹ : Matrix o o ℂ) := h1
    rw [h4, ← h2]
    rfl
  · rw [dispatch_outside (doubled_good hm) mu _ w hw k, dispatch_outside hm mu S w hw k]
    funext a b
    simp [diagS]

/-! ## C90 -/

/-- what corresponds to each other in the two calculations -/
structure SpinRel (t : Sweep n o) (t2 : Sweep n (o × Bool)) : Prop where
  g : t2.g = spinG t.g
  mu : t2.mu = t.mu
  sigma : ∀ w k, t2.sigma w k = diagS (t.sigma w k)
  P : ∀ w k, t2.P w k = exS (t.P w k)
  W : ∀ x, t2.W x = chS (t.W x)

theorem sweep_spin (hm : GoodMeshes p) (hz : ZeroPieces p) (hN : p.nFix = 0) (f : Flags) (hh : f.hartree = false)
    (hs : f.spinless = true) (mu : ℝ) (g : G n o) : ∃ t t2, p.sweep f mu g = .ok t ∧
      (doubled p).sweep { f with spinless := false } mu (spinG g) = .ok t2 ∧ SpinRel t t2 := by
  have h1 : ∃ t, p.sweep f mu g = .ok t := by
    unfold SolverParams.sweep SolverParams.dyson
    simp only [hN, if_true]
    exact ⟨_, rfl⟩
  have h2 : ∃ t2, (doubled p).sweep { f with spinless := false } mu (spinG g) = .ok t2 := by
    have hN' : (doubled p).nFix = 0 := hN
    unfold SolverParams.sweep SolverParams.dyson
    simp only [hN', if_true]
    exact ⟨_, rfl⟩
  obtain ⟨t, ht⟩ := h1
  obtain ⟨t2, ht2⟩ := h2
  obtain ⟨-, -, b3, b4, -, -, -, b8⟩ := sweep_ok _ _ _ _ ht
  obtain ⟨-, -, c3, c4, -, -, -, c8⟩ := sweep_ok _ _ _ _ ht2
  have hP : ∀ w k, t2.P w k = exS (t.P w k) := fun w k => by rw [c3, b3, polarization_spin hm hz]
  have hW : ∀ x, t2.W x = chS (t.W x) := by
    rintro ⟨w, k⟩
    rw [c4, b4, hs, screened_eq (doubled_good hm), screened_eq hm]
    change (if w ∈ p.bfreqs then screenedOptPoint ((if false = true then (2 : ℂ) else 1) • t2.P w k) (chS (p.V k)) else 0) = _
    by_cases hw : w ∈ p.bfreqs
    · simp only [hw, Bool.false_eq_true, if_false, if_true, one_smul]
      rw [hP, screened_spin]
    · simp only [hw, if_false]
      funext a b c d
      simp [chS]
  have hsig : t2.sigma = fun w k => diagS (t.sigma w k) := by
    funext w k a b
    rw [(sweep_spec (doubled_good hm) _ _ _ _ ht2).sigma]
    have e1 : (fun x => chS (t.W x)) = t2.W := (funext hW).symm
    rw [← e1, fock_spin hz, dyn_spin hz]
    unfold diagS
    rw [(sweep_spec hm _ _ _ _ ht).sigma]
    simp only [hh, Bool.false_eq_true, if_false, zero_add]
    by_cases h : a.2 = b.2
    · simp only [h, if_true]
    · simp only [h, if_false, ite_self, add_zero]
  obtain ⟨g1, m1, -⟩ := dyson_ok _ _ _ _ b8
  obtain ⟨g2, m2, -⟩ := dyson_ok _ _ _ _ c8
  have hmu : t2.mu = t.mu := by rw [m1 hN, m2 hN]
  refine ⟨t, t2, ht, ht2, ?_, hmu, fun w k => by rw [hsig], hP, hW⟩
  rw [g2, g1, hmu, hsig, dispatch_spin hm]

theorem close_spin (tol : ℝ) (old : Option (G n o)) (g : G n o) :
    (doubled p).close tol (old.map spinG) (spinG g) ↔ p.close tol old g := by
  cases old with
  | none => exact Iff.rfl
  | some h =>
    refine ⟨fun H w hw k hk a b => ?_, fun H w hw k hk a b => ?_⟩
    · have := H w hw k hk (a, true) (b, true)
      simpa [spinG, diagS] using this
    · have := H w hw k hk a.1 b.1
      unfold spinG diagS
      by_cases hs : a.2 = b.2
      · simpa only [hs, if_true] using this
      · simp only [hs, if_false, sub_zero, norm_zero]
        exact lt_of_le_of_lt (norm_nonneg _) this

theorem loop_spin (hm : GoodMeshes p) (hz : ZeroPieces p) (hN : p.nFix = 0) (f : Flags) (hh : f.hartree = false)
    (hs : f.spinless = true) (tol : ℝ) (fuel : ℕ) (mu : ℝ) (g : G n o) (old : Option (G n o))
    (last : Option (Sweep n o)) (last2 : Option (Sweep n (o × Bool))) :
    ∃ t t2, p.loop f tol (fuel + 1) mu g old last = .ok (some t) ∧
      (doubled p).loop { f with spinless := false } tol (fuel + 1) mu (spinG g) (old.map spinG) last2 = .ok (some t2) ∧
      SpinRel t t2 := by
  induction fuel generalizing mu g old last last2 with
  | zero =>
    obtain ⟨t, t2, ht, ht2, hr⟩ := sweep_spin hm hz hN f hh hs mu g
    refine ⟨t, t2, ?_, ?_, hr⟩
    · rw [SolverParams.loop, ht]
      dsimp only
      split_ifs
      · rfl
      · rw [SolverParams.loop]
    · rw [SolverParams.loop, ht2]
      dsimp only
      split_ifs
      · rfl
      · rw [SolverParams.loop]
  | succ fuel ih =>
    obtain ⟨t, t2, ht, ht2, hr⟩ := sweep_spin hm hz hN f hh hs mu g
    have hc := close_spin (p := p) tol old t.g
    rw [← hr.g] at hc
    by_cases h : p.close tol old t.g
    · refine ⟨t, t2, ?_, ?_, hr⟩
      · rw [SolverParams.loop, ht]
        dsimp only
        rw [if_pos h]
      · rw [SolverParams.loop, ht2]
        dsimp only
        rw [if_pos (hc.2 h)]
    · obtain ⟨u, u2, hu, hu2, hr2⟩ := ih t.mu t.g (some t.g) (some t) (some t2)
      refine ⟨u, u2, ?_, ?_, hr2⟩
      · rw [SolverParams.loop, ht]
        dsimp only
        rw [if_neg h]
        exact hu
      · rw [SolverParams.loop, ht2]
        dsimp only
        rw [if_neg (fun x => h (hc.1 x)), hr.mu, hr.g]
        exact hu2

/-- C90 (run): a run without Hartree part with `spinless` started from `g` and the run with spin as an index, an
interaction between all spins and the start `g` for each spin agree in every iteration: same chemical potential, both
spins have the Green's function and self energy of the first, the screened interaction acts between all spins, the
polarisation keeps the spin of each propagator, the particle number is twice that of the first, and the susceptibility
of the first is the one between equal spins. -/
theorem C90_run (hm : GoodMeshes p) (hz : ZeroPieces p) (hN : p.nFix = 0) (f : Flags) (hh : f.hartree = false)
    (hs : f.spinless = true) (tol : ℝ) (maxiter : ℕ) (h1 : 1 ≤ maxiter) (s : SolverState n o)
    (s2 : SolverState n (o × Bool)) (hg : s2.g = spinG s.g) (hmu : s2.mu = s.mu) :
    ∃ s' s2', p.solveIter f tol maxiter s = .ok s' ∧
      (doubled p).solveIter { f with spinless := false } tol maxiter s2 = .ok s2' ∧
      s2'.g = spinG s'.g ∧ s2'.mu = s'.mu ∧ (∀ w k, s2'.sigma w k = diagS (s'.sigma w k)) ∧
      (∃ N, s'.N = some N ∧ s2'.N = some (2 * N)) ∧
      (f.gw = true → ∃ P W P2 W2 chi chi2, s'.P = some P ∧ s'.W = some W ∧ s'.chi = some chi ∧
        s2'.P = some P2 ∧ s2'.W = some W2 ∧ s2'.chi = some chi2 ∧ (∀ w k, P2 w k = exS (P w k)) ∧
        (∀ x, W2 x = chS (W x)) ∧
        ∀ x a b c e (σ : Bool), chi2 x (a, σ) (b, σ) (c, σ) (e, σ) = chi x a b c e) := by
  obtain ⟨fuel, rfl⟩ : ∃ fuel, maxiter = fuel + 1 := ⟨maxiter - 1, by omega⟩
  obtain ⟨t, t2, ht, ht2, hr⟩ := loop_spin hm hz hN f hh hs tol fuel s.mu s.g none none none
  have e1 : ∃ s', p.solveIter f tol (fuel + 1) s = .ok s' ∧ p.finish f s (some t) = .ok s' := by
    unfold SolverParams.solveIter
    rw [ht]
    exact ⟨_, rfl, rfl⟩
  have e2 : ∃ s2', (doubled p).solveIter { f with spinless := false } tol (fuel + 1) s2 = .ok s2' ∧
      (doubled p).finish { f with spinless := false } s2 (some t2) = .ok s2' := by
    unfold SolverParams.solveIter
    rw [hg, hmu]
    have ht2' : (doubled p).loop { f with spinless := false } tol (fuel + 1) s.mu (spinG s.g) none none
      = .ok (some t2) := ht2
    rw [ht2']
    exact ⟨_, rfl, rfl⟩
  obtain ⟨s', hs', hf1⟩ := e1
  obtain ⟨s2', hs2', hf2⟩ := e2
  refine ⟨s', s2', hs', hs2', ?_⟩
  obtain rfl := (Except.ok.inj hf1).symm
  obtain rfl := (Except.ok.inj hf2).symm
  refine ⟨hr.g, hr.mu, hr.sigma, ⟨_, rfl, ?_⟩, fun hgw => ?_⟩
  · dsimp only
    congr 1
    rw [totalDensity_eq (doubled_good hm), totalDensity_eq hm, hr.g]
    simp only [rhoSpec_spin hz, Fintype.sum_prod_type, Fintype.sum_bool, diagS, if_true, Finset.sum_add_distrib]
    ring
  · refine ⟨t.P, t.W, t2.P, t2.W, p.susceptibility t.P t.W, (doubled p).susceptibility t2.P t2.W,
      by simp [hgw], by simp [hgw], by simp [hgw], by simp [hgw], by simp [hgw], by simp [hgw], hr.P, hr.W,
      fun x a b c e σ => ?_⟩
    obtain ⟨w, k⟩ := x
    have c1 := C02_distributedAssign p.ranks hm.ranks _ (prodMesh_nodup hm.bfreqs hm.lat.1)
      (fun x : ℤ × Lat n => screenedGeneralizedPoint (t.W x) (t.P x.1 x.2)) (w, k)
    have c2 := C02_distributedAssign p.ranks hm.ranks _ (prodMesh_nodup hm.bfreqs hm.lat.1)
      (fun x : ℤ × Lat n => screenedGeneralizedPoint (t2.W x) (t2.P x.1 x.2)) (w, k)
    have d1 : p.susceptibility t.P t.W (w, k) = _ := c1
    have d2 : (doubled p).susceptibility t2.P t2.W (w, k) = _ := c2
    rw [d1, d2]
    split_ifs with hmem
    · dsimp only
      rw [hr.W, hr.P]
      unfold screenedGeneralizedPoint matTensor
      simp only [Matrix.add_apply, Matrix.mul_apply, pairMat, exS, chS, Fintype.sum_prod_type, Fintype.sum_bool]
      cases σ <;> simp
    · rfl

/-- C90 (Hartree): the Hartree part is half of the one with spin as an index. -/
theorem C90_hartree (hz : ZeroPieces p) (g : G n o) (a b : o) (σ : Bool) :
    hartreeSpec (doubled p) (spinG g) (a, σ) (b, σ) = 2 * hartreeSpec p g a b := by
  rw [hartree_spin hz]
  simp [diagS]

/-- one orbital with linear transforms -/
def toyAtom : SolverParams (fun _ : Fin 1 => 1) Unit :=
  { atom 1 0 1 0 (0, 0) noBrent with pieces := toyPieces }

theorem toyAtom_good : GoodMeshes toyAtom := ⟨(atom_good 1 0 1 0 (0, 0) noBrent).1, (atom_good 1 0 1 0 (0, 0) noBrent).2,
  (atom_good 1 0 1 0 (0, 0) noBrent).3, (atom_good 1 0 1 0 (0, 0) noBrent).4⟩

theorem toyAtom_zero : ZeroPieces toyAtom := ⟨fun _ => rfl, fun _ => rfl, fun _ => rfl, fun _ => rfl, rfl⟩

/-- hypotheses of `C90_run` -/
example : GoodMeshes toyAtom ∧ ZeroPieces toyAtom ∧ toyAtom.nFix = 0 ∧
    ∃ (s : SolverState (fun _ : Fin 1 => 1) Unit) (s2 : SolverState (fun _ : Fin 1 => 1) (Unit × Bool)),
      s2.g = spinG s.g ∧ s2.mu = s.mu ∧ s.g 0 0 () () ≠ 0 :=
  ⟨toyAtom_good, toyAtom_zero, rfl, { mu := 0, g := fun _ _ _ _ => 1, sigma := 0 },
    { mu := 0, g := spinG fun _ _ _ _ => 1, sigma := 0 }, rfl, rfl, one_ne_zero⟩

/-- C90 is violated with the Hartree part: it counts one spin only, so the self energy of the `spinless` run is not that
of each spin. -/
theorem C90_hartree_violated : ∃ (p : SolverParams (fun _ : Fin 1 => 1) Unit) (s : SolverState (fun _ : Fin 1 => 1) Unit)
    (s2 : SolverState (fun _ : Fin 1 => 1) (Unit × Bool)), GoodMeshes p ∧ ZeroPieces p ∧ p.nFix = 0 ∧
    s2.g = spinG s.g ∧ s2.mu = s.mu ∧ ∃ s' s2',
      p.solveIter { hartree := true, fock := false, gw := false, spinless := true } 0 1 s = .ok s' ∧
      (doubled p).solveIter { hartree := true, fock := false, gw := false, spinless := false } 0 1 s2 = .ok s2' ∧
      s'.sigma 0 0 () () = 1 ∧ ∀ σ, s2'.sigma 0 0 ((), σ) ((), σ) = 2 := by
  let s : SolverState (fun _ : Fin 1 => 1) Unit := { mu := 0, g := fun _ _ _ _ => 1, sigma := 0 }
  let s2 : SolverState (fun _ : Fin 1 => 1) (Unit × Bool) := { mu := 0, g := spinG s.g, sigma := 0 }
  obtain ⟨s', h⟩ := C87_total (p := toyAtom) rfl { hartree := true, fock := false, gw := false, spinless := true } 0 1
    le_rfl s
  obtain ⟨s2', h2⟩ := C87_total (p := doubled toyAtom) rfl
    { hartree := true, fock := false, gw := false, spinless := false } 0 1 le_rfl s2
  have hH : hartreeSpec toyAtom s.g () () = 1 := by
    unfold hartreeSpec
    rw [Fintype.sum_unique, Fintype.sum_unique, Fintype.sum_unique, card_L1]
    simp [toyAtom, atom, rhoSpec, toyPieces, s]
  refine ⟨toyAtom, s, s2, toyAtom_good, toyAtom_zero, rfl, rfl, rfl, s', s2', h, h2, ?_, fun σ => ?_⟩
  · obtain ⟨m, steps, hm, ha, -, -, -, hsig, -⟩ := C87_run toyAtom_good _ _ 1 le_rfl s s' h
    obtain rfl : m = 0 := by omega
    rw [hsig, ha.sigma, hH]
    simp
  · obtain ⟨m, steps, hm, ha, -, -, -, hsig, -⟩ := C87_run (doubled_good toyAtom_good) _ _ 1 le_rfl s2 s2' h2
    obtain rfl : m = 0 := by omega
    rw [hsig, ha.sigma, show s2.g = spinG s.g from rfl, C90_hartree toyAtom_zero, hH]
    simp

end Verif.Gw
