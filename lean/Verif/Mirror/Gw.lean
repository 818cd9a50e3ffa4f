import Verif.Mirror.Props
import Verif.Gw.SolverProps

/-!
# C129: particles and holes in the GW solver
-/

set_option linter.unusedSectionVars false

noncomputable section

namespace Verif.Mirror

open Complex Matrix Verif.Parallel Verif.Fourier Verif.Bubble Verif.Gw Verif.Rpa Verif.Dyson

variable {dm : ℕ} {n : Fin dm → ℕ} [∀ i, NeZero (n i)] {o : Type} [Fintype o] [DecidableEq o]

/-! ## The same problem written for holes -/

/-- Hartree potential of a full band -/
def fullHartree (V : Lat n → Bubble.T4 o) : Matrix o o ℂ := Matrix.of fun a b => ∑ c, V 0 a b c c

/-- Fock potential of a full band -/
def fullFock (V : Lat n → Bubble.T4 o) : Matrix o o ℂ := Matrix.of fun a b =>
  -((Fintype.card (Lat n) : ℂ)⁻¹ * ∑ q, ∑ c, V q a c c b)

/-- The same problem written for holes. The dispersion gets the potential of a full band, with the terms that the run has switched
on. The transforms between time and frequency treat the two directions of time alike and look only at the times of the mesh; `mom` is
the coefficient of `1/iν`. -/
structure HoleGw (f : Flags) (mom : (ℤ → ℂ) → ℂ) (p p' : SolverParams n o) : Prop where
  good : GoodMeshes p
  good' : GoodMeshes p'
  freqs : p'.freqs = p.freqs
  bfreqs : p'.bfreqs = p.bfreqs
  nw : p'.nw = p.nw
  L : p'.L = p.L
  beta : p'.beta = p.beta
  val : p'.val = p.val
  pieces : p'.pieces = p.pieces
  boseFreq : p'.boseFreq = p.boseFreq
  nFix : p.nFix = 0
  nFix' : p'.nFix = 0
  e : ∀ k, p'.e k = -(p.e (-k) + (if f.hartree then fullHartree p.V else 0) + (if f.fock then fullFock p.V else 0))ᵀ
  V : ∀ k, p'.V k = hole4 (p.V k)
  exch : ∀ k, p.V k = Herm.exch (p.V (-k))
  valNeg : ∀ w, p.val (-w - 1) = -p.val w
  freqsNeg : ∀ w, -w - 1 ∈ p.freqs ↔ w ∈ p.freqs
  bfreqsNeg : ∀ w, -w ∈ p.bfreqs ↔ w ∈ p.bfreqs
  gToTau : ∀ x, ∀ t ≤ p.L, p.pieces.gToTau (fun w => -x (-w - 1)) t = p.pieces.gToTau x (p.L - t)
  wToTau : ∀ x, ∀ t ≤ p.L, p.pieces.wToTau (fun w => x (-w)) t = p.pieces.wToTau x (p.L - t)
  toFreq : ∀ y y' : ℕ → ℂ, (∀ t ≤ p.L, y' t = y (p.L - t)) → ∀ w, p.pieces.toFreq y' w = -p.pieces.toFreq y (-w - 1)
  bose : ∀ y y' : ℕ → ℂ, (∀ t ≤ p.L, y' t = y (p.L - t)) → ∀ w, p.boseFreq y' w = p.boseFreq y (-w)
  dens : ∀ x, p.pieces.dens (fun w => -x (-w - 1)) = mom x - p.pieces.dens x

/-- a Green's function that falls off like `1/iν` -/
def Normal (mom : (ℤ → ℂ) → ℂ) (g : G n o) : Prop := ∀ k a b, mom (fun w => g w k a b) = if a = b then 1 else 0

variable {f : Flags} {mom : (ℤ → ℂ) → ℂ} {p p' : SolverParams n o} {g : G n o}

/-! ## Parts -/

theorem boseSupp (h : HoleGw f mom p p') {y y' : ℕ → ℂ} (hy : ∀ t ≤ p.L, y' t = y t) (w : ℤ) : p.boseFreq y' w = p.boseFreq y w := by
  have h1 := h.bose (fun t => y (p.L - t)) y' (fun t ht => by rw [Nat.sub_sub_self ht, hy t ht]) w
  rw [h1, h.bose y (fun t => y (p.L - t)) (fun t _ => rfl), neg_neg]

theorem rho_hole (h : HoleGw f mom p p') (hg : Normal mom g) (k : Lat n) (i j : o) :
    rhoSpec p' (holeG g) k i j = (if i = j then 1 else 0) - rhoSpec p g (-k) j i := by
  unfold rhoSpec holeG
  rw [h.pieces, h.dens fun w => g w (-k) i j, hg]

theorem gTime_hole (h : HoleGw f mom p p') {t : ℕ} (ht : t ≤ p.L) (r : Lat n) (a b : o) :
    gTimeSpace p' (holeG g) t r a b = gTimeSpace p g (p.L - t) (-r) b a := by
  unfold gTimeSpace
  rw [h.pieces, ← h.gToTau _ t ht]
  congr 1
  funext w
  have := congrFun (congrFun (C129_transform g w r) a) b
  rw [Supercell.kToR_entry2] at this
  rw [this]
  change -kToR (g (-w - 1)) (-r) b a = _
  rw [Supercell.kToR_entry2]

theorem hartree_hole (h : HoleGw f mom p p') (hg : Normal mom g) (a b : o) :
    hartreeSpec p' (holeG g) a b = fullHartree p.V b a - hartreeSpec p g b a := by
  have hk : (Fintype.card (Lat n) : ℂ) ≠ 0 := Nat.cast_ne_zero.2 Fintype.card_ne_zero
  have hr : ∀ c d, (Fintype.card (Lat n) : ℂ)⁻¹ * ∑ q, rhoSpec p' (holeG g) q c d
      = (if c = d then 1 else 0) - (Fintype.card (Lat n) : ℂ)⁻¹ * ∑ q, rhoSpec p g q d c := by
    intro c d
    simp only [rho_hole h hg, Finset.sum_sub_distrib, Finset.sum_const, Finset.card_univ, nsmul_eq_mul, mul_sub]
    rw [← mul_assoc, inv_mul_cancel₀ hk, one_mul]
    congr 2
    exact Equiv.sum_comp (Equiv.neg (Lat n)) fun q => rhoSpec p g q d c
  unfold hartreeSpec
  simp only [hr, h.V, hole4]
  rw [Finset.sum_comm]
  change _ = (∑ c, p.V 0 b a c c) - _
  rw [← Finset.sum_sub_distrib]
  refine Finset.sum_congr rfl fun c _ => ?_
  simp only [mul_sub, Finset.sum_sub_distrib, mul_ite, mul_one, mul_zero, Finset.sum_ite_eq', Finset.mem_univ, if_true]

theorem fock_hole (h : HoleGw f mom p p') (hg : Normal mom g) (k : Lat n) (a b : o) :
    fockSpec p' (holeG g) k a b = fullFock p.V b a - fockSpec p g (-k) b a := by
  unfold fockSpec
  change _ = -((Fintype.card (Lat n) : ℂ)⁻¹ * ∑ q, ∑ c, p.V q b c c a) - _
  rw [← neg_sub', ← mul_sub, ← Finset.sum_sub_distrib]
  congr 2
  rw [← Equiv.sum_comp (Equiv.neg (Lat n))]
  refine Finset.sum_congr rfl fun q _ => ?_
  rw [Equiv.neg_apply]
  have hV : ∀ c d, p'.V (-q) a c d b = p.V q b d c a := by
    intro c d
    rw [h.V, h.exch (-q), neg_neg]
    rfl
  simp only [hV, rho_hole h hg, show -(k - -q) = -k - q by abel]
  rw [Finset.sum_comm, ← Finset.sum_sub_distrib]
  refine Finset.sum_congr rfl fun c _ => ?_
  simp only [mul_sub, Finset.sum_sub_distrib, mul_ite, mul_one, mul_zero, Finset.sum_ite_eq, Finset.mem_univ, if_true]

theorem chi0tPoint_hole (h : HoleGw f mom p p') {t : ℕ} (ht : t ≤ p.L) (r : Lat n) :
    chi0tPoint p.L (gTimeSpace p' (holeG g)) r t = hole4 (chi0tPoint p.L (gTimeSpace p g) r t) := by
  funext a b c d
  simp only [chi0tPoint, hole4]
  rw [gTime_hole h ht, gTime_hole h (Nat.sub_le _ _), Nat.sub_sub_self ht, neg_neg, mul_comm]

theorem chi0tPoint_exch {L t : ℕ} (ht : t ≤ L) (g : ℕ → Lat n → o → o → ℂ) (r : Lat n) :
    chi0tPoint L g r t = Herm.exch (chi0tPoint L g (-r) (L - t)) := by
  funext a b c d
  simp only [chi0tPoint, Herm.exch]
  rw [Nat.sub_sub_self ht, neg_neg, mul_comm]

theorem trapz_congr {L : ℕ} {x y : ℕ → Bubble.T4 o} (s : Bubble.T4 o → Bubble.T4 o) (hs : ∀ x y : Bubble.T4 o, s (x + y) = s x + s y)
    (hc : ∀ (c : ℂ) (x : Bubble.T4 o), s (c • x) = c • s x) (h : ∀ t ≤ L, x t = s (y t)) (beta : ℂ) :
    trapz beta L x = s (trapz beta L y) := by
  have hlin : ∃ l : Bubble.T4 o →ₗ[ℂ] Bubble.T4 o, ∀ x, l x = s x := ⟨{ toFun := s, map_add' := hs, map_smul' := hc }, fun _ => rfl⟩
  obtain ⟨l, hl⟩ := hlin
  simp only [← hl] at h ⊢
  unfold trapz
  rw [map_smul, map_sub, map_sub, map_smul, map_smul, map_sum, h 0 (Nat.zero_le _), h L le_rfl]
  congr 3
  exact Finset.sum_congr rfl fun t ht => h t (Nat.lt_succ_iff.1 (Finset.mem_range.1 ht))

theorem trapz_reverse (beta : ℂ) (L : ℕ) (x : ℕ → Bubble.T4 o) : trapz beta L (fun t => x (L - t)) = trapz beta L x := by
  unfold trapz
  dsimp only
  rw [Nat.sub_zero, Nat.sub_self, sub_right_comm]
  congr 3
  exact Finset.sum_range_reflect x (L + 1)

theorem rToK_lin {E : Type*} [AddCommGroup E] [Module ℂ E] (f : Lat n → E) (k : Lat n) :
    rToK (fun r => f (-r)) k = rToK f (-k) := by
  have h : rToK (kToR fun k => rToK f (-k)) k = rToK f (-k) := by rw [rToK_kToR]
  rw [← h]
  congr 1
  funext r
  rw [Supercell.kToR_flip, kToR_rToK]

theorem chi0_hole (h : HoleGw f mom p p') (w : ℤ) (k : Lat n) : p'.chi0 (holeG g) w k = hole4 (p.chi0 g w k) := by
  unfold SolverParams.chi0
  by_cases hn : p.nw = 1
  · rw [if_pos hn, if_pos (h.nw.trans hn)]
    by_cases hw : w = 0
    · rw [if_pos hw, if_pos hw, gTr_eq, gTr_eq]
      funext a b c d
      simp only [hole4]
      rw [rToK_apply4, rToK_apply4]
      congr 1
      funext r
      unfold chi0W0r
      rw [h.good.lat.assign h.good.ranks, h.good'.lat.assign h.good'.ranks, h.beta, h.L]
      have := trapz_congr (hole4 (o := o) (F := ℂ)) (fun _ _ => rfl) (fun _ _ => rfl)
        (fun t ht => chi0tPoint_hole (g := g) h ht r) (p.beta : ℂ)
      rw [this]
      rfl
    · rw [if_neg hw, if_neg hw]
      rfl
  · rw [if_neg hn, if_neg fun h' => hn (h.nw ▸ h')]
    funext a b c d
    simp only [hole4]
    rw [rToK_apply4, rToK_apply4]
    congr 1
    funext r
    rw [h.boseFreq]
    refine boseSupp h (fun t ht => ?_) w
    unfold chi0tr
    rw [h.good.lat.assign h.good.ranks, h.good'.lat.assign h.good'.ranks, h.L, gTr_eq, gTr_eq, chi0tPoint_hole h ht]
    rfl

theorem chi0_exch (h : HoleGw f mom p p') (g : G n o) (w : ℤ) (k : Lat n) : p.chi0 g w k = Herm.exch (p.chi0 g (-w) (-k)) := by
  unfold SolverParams.chi0
  by_cases hn : p.nw = 1
  · rw [if_pos hn]
    by_cases hw : w = 0
    · rw [if_pos hw, if_pos (by rw [hw, neg_zero]), gTr_eq]
      funext a b c d
      simp only [Herm.exch]
      rw [rToK_apply4, rToK_apply4, ← rToK_lin]
      congr 1
      funext r
      unfold chi0W0r
      rw [h.good.lat.assign h.good.ranks]
      have := trapz_congr (Herm.exch (o := o)) (fun _ _ => rfl) (fun _ _ => rfl)
        (fun t ht => chi0tPoint_exch (L := p.L) (t := t) ht (gTimeSpace p g) r) (p.beta : ℂ)
      rw [this, trapz_reverse]
      rfl
    · rw [if_neg hw, if_neg (by simpa using hw)]
      rfl
  · rw [if_neg hn]
    funext a b c d
    simp only [Herm.exch]
    rw [rToK_apply4, rToK_apply4, ← rToK_lin]
    congr 1
    funext r
    refine h.bose _ _ (fun t ht => ?_) w
    unfold chi0tr
    rw [h.good.lat.assign h.good.ranks, gTr_eq, chi0tPoint_exch ht]
    rfl

theorem W_hole (h : HoleGw f mom p p') (w : ℤ) (k : Lat n) :
    p'.screened f.spinless (p'.polarization (holeG g)) (w, k) = hole4 (p.screened f.spinless (p.polarization g) (w, k)) := by
  rw [screened_eq h.good', screened_eq h.good, h.bfreqs]
  by_cases hw : w ∈ p.bfreqs
  · rw [if_pos hw, if_pos hw, C17_paths_agree, C17_paths_agree, h.V, ← (screened_hole _ _).1]
    congr 1
    unfold SolverParams.polarization
    rw [chi0_hole h]
    rfl
  · rw [if_neg hw, if_neg hw]
    rfl

theorem W_exch (h : HoleGw f mom p p') (g : G n o) (w : ℤ) (k : Lat n) :
    p.screened f.spinless (p.polarization g) (w, k) = Herm.exch (p.screened f.spinless (p.polarization g) (-w, -k)) := by
  rw [screened_eq h.good, screened_eq h.good]
  by_cases hw : w ∈ p.bfreqs
  · rw [if_pos hw, if_pos ((h.bfreqsNeg w).2 hw), C17_paths_agree, C17_paths_agree, ← (Herm.screened_exch _ _).1, ← h.exch]
    congr 1
    unfold SolverParams.polarization
    rw [chi0_exch h g w k]
    rfl
  · rw [if_neg hw, if_neg fun h' => hw ((h.bfreqsNeg w).1 h')]
    rfl

theorem dyn_core (h : HoleGw f mom p p') {W W' : ℤ × Lat n → Bubble.T4 o} (hW : ∀ v q, W' (v, q) = hole4 (Herm.exch (W (-v, -q))))
    (g : G n o) (w : ℤ) (k : Lat n) (a b : o) : dynSpec p' W' (holeG g) w k a b = -dynSpec p W g (-w - 1) (-k) b a := by
  have neg : ∀ (F : Lat n → ℂ), -rToK F k = rToK (fun r => -F r) k := by
    intro F
    simp only [rToK, fftw, smul_neg, Finset.sum_neg_distrib]
  have e1 : ∀ v q c d, (if v ∈ p.bfreqs then W' (v, q) a c d b - p'.V q a c d b else 0)
      = if -v ∈ p.bfreqs then W (-v, -q) b d c a - p.V (-q) b d c a else 0 := by
    intro v q c d
    rw [hW, h.V, h.exch q]
    exact if_congr (h.bfreqsNeg v).symm rfl rfl
  unfold dynSpec
  rw [← rToK_lin, h.pieces, h.L, h.bfreqs, neg]
  refine congrFun (congrArg rToK (funext fun r => ?_)) k
  refine h.toFreq _ _ (fun t ht => ?_) w
  rw [if_pos ht, if_pos (Nat.sub_le _ _)]
  refine congrArg Neg.neg ?_
  rw [Finset.sum_comm]
  refine Finset.sum_congr rfl fun d _ => Finset.sum_congr rfl fun c _ => ?_
  rw [gTime_hole h ht]
  refine congrArg (· * _) ?_
  simp only [e1]
  rw [← h.wToTau _ t ht]
  refine congrFun (congrArg p.pieces.wToTau (funext fun v => ?_)) t
  exact Supercell.kToR_flip (fun q => if -v ∈ p.bfreqs then W (-v, q) b d c a - p.V q b d c a else 0) r

theorem dyn_hole (h : HoleGw f mom p p') (w : ℤ) (k : Lat n) (a b : o) :
    dynSpec p' (p'.screened f.spinless (p'.polarization (holeG g))) (holeG g) w k a b
      = -dynSpec p (p.screened f.spinless (p.polarization g)) g (-w - 1) (-k) b a := by
  refine dyn_core h (fun v q => ?_) g w k a b
  rw [W_hole h, W_exch h g v q]

theorem dispatch_out (hm : GoodMeshes p) (mu : ℝ) (s : ℤ → Lat n → o → o → ℂ) {w : ℤ} (hw : w ∉ p.freqs) (k : Lat n) :
    Matrix.of (p.dispatch mu (some s) w k) = 0 := by
  have h := C02_distributedAssign p.ranks hm.ranks _ (prodMesh_nodup hm.freqs hm.lat.1)
    (fun x : ℤ × Lat n => ((p.val x.1 + 0 + (mu : ℂ)) • (1 : Matrix o o ℂ) - p.e x.2 - Matrix.of (s x.1 x.2))⁻¹) (w, k)
  rw [if_neg fun h' => hw (mem_prodMesh.1 h').1] at h
  exact h

theorem dispatch_hole (h : HoleGw f mom p p') {s s' : ℤ → Lat n → o → o → ℂ}
    (hs : ∀ w k, p'.e k + Matrix.of (s' w k) = -(p.e (-k) + Matrix.of (s (-w - 1) (-k)))ᵀ) (mu : ℝ) :
    p'.dispatch (-mu) (some s') = holeG (p.dispatch mu (some s)) := by
  funext w k a b
  change Matrix.of (p'.dispatch (-mu) (some s') w k) a b = -(Matrix.of (p.dispatch mu (some s) (-w - 1) (-k))) b a
  by_cases hw : w ∈ p.freqs
  · rw [dispatch_some h.good' _ _ w (h.freqs ▸ hw), dispatch_some h.good _ _ _ ((h.freqsNeg w).2 hw), h.val, sub_sub, sub_sub, hs]
    have := mirror_inv (z := p.val (-w - 1) + 0 + (mu : ℂ)) (z' := p.val w + 0 + ((-mu : ℝ) : ℂ))
      (by rw [h.valNeg]; push_cast; ring) (p.e (-k) + Matrix.of (s (-w - 1) (-k))) 0
    rw [Matrix.transpose_zero, neg_zero, sub_zero, sub_zero] at this
    rw [this]
    rfl
  · rw [dispatch_out h.good' _ _ (h.freqs ▸ hw), dispatch_out h.good _ _ fun h' => hw ((h.freqsNeg w).1 h')]
    simp

/-- C129: one pass of the GW solver for the holes, from the Green's function of the holes, at `-μ`. -/
theorem C129_gw (h : HoleGw f mom p p') (hg : Normal mom g) (mu : ℝ) {t t' : Sweep n o} (ht : p.sweep f mu g = .ok t)
    (ht' : p'.sweep f (-mu) (holeG g) = .ok t') :
    t'.mu = -t.mu ∧ t'.g = holeG t.g ∧ (∀ w k, t'.P w k = hole4 (t.P w k)) ∧ (∀ x, t'.W x = hole4 (t.W x)) ∧
      (∀ w k a b, t'.dyn w k a b = -t.dyn (-w - 1) (-k) b a) ∧
      (∀ k a b, t'.hartree k a b = fullHartree p.V b a - t.hartree (-k) b a) ∧
      (∀ k a b, t'.fock k a b = fullFock p.V b a - t.fock (-k) b a) ∧
      ∀ w k, p'.e k + Matrix.of (t'.sigma w k) = -(p.e (-k) + Matrix.of (t.sigma (-w - 1) (-k)))ᵀ := by
  have s := sweep_spec h.good f mu g t ht
  have s' := sweep_spec h.good' f (-mu) (holeG g) t' ht'
  obtain ⟨-, -, a3, a4, -, -, -, a8⟩ := sweep_ok f mu g t ht
  obtain ⟨-, -, b3, b4, -, -, -, b8⟩ := sweep_ok f (-mu) (holeG g) t' ht'
  obtain ⟨ag, amu, -⟩ := dyson_ok _ _ _ _ a8
  obtain ⟨bg, bmu, -⟩ := dyson_ok _ _ _ _ b8
  have hH : ∀ k a b, t'.hartree k a b = fullHartree p.V b a - t.hartree (-k) b a := fun k a b => by
    rw [s'.hartree, s.hartree, hartree_hole h hg]
  have hF : ∀ k a b, t'.fock k a b = fullFock p.V b a - t.fock (-k) b a := fun k a b => by
    rw [s'.fock, s.fock, fock_hole h hg]
  have hD : ∀ w k a b, t'.dyn w k a b = -t.dyn (-w - 1) (-k) b a := fun w k a b => by
    rw [s'.dyn, s.dyn, a4, b4, a3, b3, dyn_hole h]
  have hS : ∀ w k, p'.e k + Matrix.of (t'.sigma w k) = -(p.e (-k) + Matrix.of (t.sigma (-w - 1) (-k)))ᵀ := by
    intro w k
    rw [h.e]
    ext a b
    simp only [Matrix.add_apply, Matrix.neg_apply, Matrix.transpose_apply, Matrix.of_apply]
    rw [s'.sigma, s.sigma, ← s'.hartree k, ← s'.fock, ← s'.dyn, ← s.hartree (-k), ← s.fock, ← s.dyn, hH, hF, hD]
    cases f.hartree <;> cases f.fock <;> cases f.gw <;> simp <;> ring
  refine ⟨by rw [amu h.nFix, bmu h.nFix'], ?_, fun w k => ?_, fun x => ?_, hD, hH, hF, hS⟩
  · rw [ag, bg, amu h.nFix, bmu h.nFix']
    exact dispatch_hole h hS mu
  · rw [a3, b3]
    unfold SolverParams.polarization
    rw [chi0_hole h]
    rfl
  · obtain ⟨w, k⟩ := x
    rw [a4, b4, a3, b3]
    exact W_hole h w k

/-- C129: a Green's function that a pass leaves as it is, for particles and for holes. -/
theorem C129_gw_solutions (h : HoleGw f mom p p') (hg : Normal mom g) (mu : ℝ) {t : Sweep n o} (ht : p.sweep f mu g = .ok t)
    (hfix : t.g = g) : ∃ t', p'.sweep f (-mu) (holeG g) = .ok t' ∧ t'.g = holeG g ∧ t'.mu = -mu := by
  have : ∃ t', p'.sweep f (-mu) (holeG g) = .ok t' := by
    unfold SolverParams.sweep SolverParams.dyson
    dsimp only
    rw [if_pos h.nFix']
    exact ⟨_, rfl⟩
  obtain ⟨t', ht'⟩ := this
  obtain ⟨-, -, -, -, -, -, -, a8⟩ := sweep_ok f mu g t ht
  obtain ⟨-, amu, -⟩ := dyson_ok _ _ _ _ a8
  obtain ⟨h1, h2, -⟩ := C129_gw h hg mu ht ht'
  exact ⟨t', ht', by rw [h2, hfix], by rw [h1, amu h.nFix]⟩

/-- C129: the number of holes. -/
theorem C129_gw_density (h : HoleGw f mom p p') (hg : Normal mom g) :
    totalDensity (p'.rhoR (holeG g)) = Fintype.card o - totalDensity (p.rhoR g) := by
  have hk : (Fintype.card (Lat n) : ℂ) ≠ 0 := Nat.cast_ne_zero.2 Fintype.card_ne_zero
  have h0 : ∀ (F : Lat n → o → o → ℂ) a, kToR F 0 a a = (Fintype.card (Lat n) : ℂ)⁻¹ * ∑ q, F q a a := by
    intro F a
    rw [Supercell.kToR_entry2, Supercell.kToR_lin, Finset.mul_sum]
    refine Finset.sum_congr rfl fun q _ => ?_
    rw [ker_zero_right, mul_one, smul_eq_mul]
  unfold totalDensity SolverParams.rhoR
  rw [rhoK_eq h.good, rhoK_eq h.good']
  simp only [h0, rho_hole h hg, if_true, Finset.sum_sub_distrib, Finset.sum_const, Finset.card_univ, nsmul_eq_mul, mul_sub, mul_one,
    inv_mul_cancel₀ hk, Complex.sub_re, Complex.one_re]
  congr 1
  refine Finset.sum_congr rfl fun a _ => ?_
  congr 2
  exact Equiv.sum_comp (Equiv.neg (Lat n)) fun q => rhoSpec p g q a a

end Verif.Mirror
