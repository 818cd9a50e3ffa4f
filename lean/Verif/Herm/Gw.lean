import Verif.Herm.Props
import Verif.Gw.Solver
import Verif.Dyson.Props
import Verif.Herm.Fourier

/-!
# C113: hermitian symmetry in the GW routines

The self energies of a hermitian Green's function are hermitian, and so is every Green's function that the GW solver
produces.  The density matrices are hermitian, and the number of electrons, of which the solver takes the real part, is
real.
-/

noncomputable section

namespace Verif.Herm

set_option linter.unusedSectionVars false

open Complex Matrix Verif.Parallel Verif.Fourier Verif.Bubble Verif.Gw Verif.Dyson Verif.Rpa

variable {dm : ℕ} {n : Fin dm → ℕ} [∀ i, NeZero (n i)] {o : Type} [Fintype o] [DecidableEq o]

/-- The transforms commute with complex conjugation, which reverses frequencies. -/
structure HermitianPieces (P : Pieces) : Prop where
  g : ∀ f t, P.gToTau (fun w => (starRingEnd ℂ) (f (-w - 1))) t = (starRingEnd ℂ) (P.gToTau f t)
  w : ∀ f t, P.wToTau (fun w => (starRingEnd ℂ) (f (-w))) t = (starRingEnd ℂ) (P.wToTau f t)
  f : ∀ f w, P.toFreq (fun t => (starRingEnd ℂ) (f t)) (-w - 1) = (starRingEnd ℂ) (P.toFreq f w)
  t : ∀ f, P.tail0 (fun w => (starRingEnd ℂ) (f (-w))) = (starRingEnd ℂ) (P.tail0 f)
  d : ∀ f, P.dens (fun w => (starRingEnd ℂ) (f (-w - 1))) = (starRingEnd ℂ) (P.dens f)

/-- `G(-iν, k) = G(iν, k)†` -/
def HermG (g : G n o) : Prop := ∀ m k a b, g (-m - 1) k a b = (starRingEnd ℂ) (g m k b a)

/-- `W(-iω, q)_{abcd} = conj W(iω, q)_{dcba}` -/
def HermW (W : ℤ → Lat n → Bubble.T4 o) : Prop := ∀ m k a b c d, W (-m) k a b c d = (starRingEnd ℂ) (W m k d c b a)

theorem HermG.tau {P : Pieces} (hP : HermitianPieces P) {g : G n o} (hg : HermG g) (t : ℕ) (r : Lat n) (a b : o) :
    P.gToTau (fun w => kToR (g w) (-r) a b) t = (starRingEnd ℂ) (P.gToTau (fun w => kToR (g w) r b a) t) := by
  rw [← hP.g]
  congr 1
  funext w
  rw [kToR_apply2, kToR_apply2, Lindhard.conj_kToR]
  congr 1
  funext k
  have h := hg (-w - 1) k a b
  rwa [show -(-w - 1) - 1 = w by ring] at h

theorem HermW.tau {P : Pieces} (hP : HermitianPieces P) {W : ℤ → Lat n → Bubble.T4 o} (hW : HermW W) (t : ℕ) (r : Lat n)
    (a b c d : o) : P.wToTau (fun w => kToR (W w) (-r) a b c d) t
      = (starRingEnd ℂ) (P.wToTau (fun w => kToR (W w) r d c b a) t) := by
  rw [← hP.w]
  congr 1
  funext w
  rw [kToR_apply4, kToR_apply4, Lindhard.conj_kToR]
  congr 1
  funext k
  have h := hW (-w) k a b c d
  rwa [neg_neg] at h

/-- C113: the density matrix of every momentum is hermitian. -/
theorem C113_density {P : Pieces} (hP : HermitianPieces P) {ranks : ℕ} (hr : 0 < ranks) {lat : List (Lat n)}
    (hc : Complete lat) {g : G n o} (hg : HermG g) (k : Lat n) (a b : o) :
    Gw.rhoK ranks lat (densityOf P) g k a b = (starRingEnd ℂ) (Gw.rhoK ranks lat (densityOf P) g k b a) := by
  rw [Gw.rhoK, hc.assign hr]
  simp only [densityOf]
  rw [← hP.d]
  congr 1
  funext w
  have h := hg (-w - 1) k b a
  rwa [show -(-w - 1) - 1 = w by ring] at h

/-- hermitian in momentum space, in real space -/
theorem herm_kToR {f : Lat n → o → o → ℂ} (hf : ∀ k a b, f k a b = (starRingEnd ℂ) (f k b a)) (r : Lat n) (a b : o) :
    kToR f (-r) a b = (starRingEnd ℂ) (kToR f r b a) := by
  rw [kToR_apply2, kToR_apply2, Lindhard.conj_kToR]
  congr 1
  funext k
  exact hf k a b

theorem herm_kToR4 {f : Lat n → Bubble.T4 o} (hf : ∀ k a b c d, f k a b c d = (starRingEnd ℂ) (f k d c b a)) (r : Lat n)
    (a b c d : o) : kToR f (-r) a b c d = (starRingEnd ℂ) (kToR f r d c b a) := by
  rw [kToR_apply4, kToR_apply4, Lindhard.conj_kToR]
  congr 1
  funext k
  exact hf k a b c d

theorem herm_rToK {f : Lat n → o → o → ℂ} (hf : ∀ r a b, f (-r) a b = (starRingEnd ℂ) (f r b a)) (k : Lat n) (a b : o) :
    rToK f k a b = (starRingEnd ℂ) (rToK f k b a) := by
  rw [rToK_apply2, rToK_apply2, conj_rToK]
  congr 1
  funext r
  rw [← hf, neg_neg]

/-- C113: the Fock self energy. -/
theorem C113_fock {ranks : ℕ} (hr : 0 < ranks) {lat : List (Lat n)} (hc : Complete lat) {v : Lat n → Bubble.T4 o}
    (hv : ∀ k a b c d, v k a b c d = (starRingEnd ℂ) (v k d c b a)) {rho : Lat n → o → o → ℂ}
    (hrho : ∀ k a b, rho k a b = (starRingEnd ℂ) (rho k b a)) (k : Lat n) (a b : o) :
    rToK (fockR ranks lat (kToR v) (kToR rho)) k a b
      = (starRingEnd ℂ) (rToK (fockR ranks lat (kToR v) (kToR rho)) k b a) ∧
    fockK ranks lat v rho k a b = (starRingEnd ℂ) (fockK ranks lat v rho k b a) := by
  constructor
  · refine herm_rToK (fun r a b => ?_) k a b
    rw [fockR, hc.assign hr]
    simp only [map_sum, map_mul, map_neg]
    rw [Finset.sum_comm]
    refine Finset.sum_congr rfl fun d _ => Finset.sum_congr rfl fun c _ => ?_
    rw [herm_kToR4 hv, herm_kToR hrho]
  · rw [fockK, hc.assign hr]
    rw [hc.sum, hc.sum]
    simp only [map_sum, map_mul, map_neg, map_div₀, Complex.conj_natCast]
    refine Finset.sum_congr rfl fun q _ => ?_
    rw [Finset.sum_comm]
    refine Finset.sum_congr rfl fun d _ => Finset.sum_congr rfl fun c _ => ?_
    rw [hv q a c d b, hrho (k + q) d c]

/-- C113: the Hartree self energy; the interaction at zero momentum must also be symmetric under exchange. -/
theorem C113_hartree {v : Lat n → Bubble.T4 o} (hv : ∀ a b c d, v 0 a b c d = (starRingEnd ℂ) (v 0 d c b a))
    (hx : ∀ a b c d, v 0 a b c d = v 0 c d a b) {rho : Lat n → o → o → ℂ}
    (hrho : ∀ k a b, rho k a b = (starRingEnd ℂ) (rho k b a)) (k : Lat n) (a b : o) :
    rToK (hartreeR v (kToR rho)) k a b = (starRingEnd ℂ) (rToK (hartreeR v (kToR rho)) k b a) := by
  refine herm_rToK (fun r a b => ?_) k a b
  by_cases h : r = 0
  · subst h
    rw [neg_zero, hartreeR, Function.update_self]
    simp only [map_sum, map_mul]
    rw [Finset.sum_comm]
    refine Finset.sum_congr rfl fun d _ => Finset.sum_congr rfl fun c _ => ?_
    have h2 := herm_kToR hrho 0 c d
    rw [neg_zero] at h2
    rw [h2, hv a b c d, hx d c b a]
  · have h' : -r ≠ 0 := by simpa using h
    simp [hartreeR, Function.update_of_ne h, Function.update_of_ne h']

/-- C113: `gw_dynamic_sigma`. -/
theorem C113_gw_dynamic (W : Bubble.T4 o) (g : o → o → ℂ) (W' : Bubble.T4 o) (g' : o → o → ℂ)
    (hW : ∀ a b c d, W' a b c d = (starRingEnd ℂ) (W d c b a)) (hg : ∀ a b, g' a b = (starRingEnd ℂ) (g b a)) (a b : o) :
    gwPoint W' g' a b = (starRingEnd ℂ) (gwPoint W g b a) := by
  simp only [gwPoint, map_sum, map_mul, map_neg]
  rw [Finset.sum_comm]
  refine Finset.sum_congr rfl fun d _ => Finset.sum_congr rfl fun c _ => ?_
  rw [hW, hg]

/-- C113: `gw_sigma` of a hermitian screened interaction and a hermitian Green's function. -/
theorem C113_gw_sigma {M : Type} {ranks : ℕ} (hr : 0 < ranks) {P : Pieces} (hP : HermitianPieces P) (Ww gw : FreqMesh)
    (Wk gk : M) {taus : List ℕ} (hts : taus.Nodup) {lat : List (Lat n)}
    (hc : Complete lat) {W : ℤ → Lat n → Bubble.T4 o} (hW : HermW W) {g : G n o} (hg : HermG g)
    {s : G n o} (hs : gwSigma ranks P Ww gw Wk gk taus lat W g = .ok s) : HermG s := by
  have ht : ∀ k a b c d, P.tail0 (fun w => W w k a b c d) = (starRingEnd ℂ) (P.tail0 fun w => W w k d c b a) := by
    intro k a b c d
    rw [← hP.t]
    congr 1
    funext w
    have h := hW (-w) k a b c d
    rwa [neg_neg] at h
  set parts := Util.split ranks lat (fun (f : ℤ → Bubble.T4 o) a b c d => P.tail0 fun w => f w a b c d) W with hparts
  have hp1 : parts.1 = fun w k a b c d => W w k a b c d - P.tail0 fun m => W m k a b c d := by
    funext w k
    rw [hparts, Util.split, hc.assign hr]
    rfl
  have hp2 : parts.2 = fun k a b c d => P.tail0 fun m => W m k a b c d := by
    rw [hparts]
    change distributedAssign ranks lat _ = _
    rw [hc.assign hr]
  have hW1 : HermW parts.1 := by
    intro m k a b c d
    rw [hp1]
    dsimp only
    rw [map_sub, hW, ht k a b c d]
  have hV : ∀ k a b c d, parts.2 k a b c d = (starRingEnd ℂ) (parts.2 k d c b a) := by
    intro k a b c d
    rw [hp2]
    exact ht k a b c d
  unfold gwSigma at hs
  split_ifs at hs
  dsimp only at hs
  rw [← hparts] at hs
  split at hs
  · exact absurd hs (by simp)
  · rename_i sdyn hd
    injection hs with hs
    subst hs
    have hsd : ∀ t r a b, sdyn (t, -r) a b = (starRingEnd ℂ) (sdyn (t, r) b a) := by
      intro t r a b
      unfold gwDynamicSigma at hd
      split_ifs at hd
      injection hd with hd
      subst hd
      have hnd : (taus.product lat).Nodup := hts.product hc.1
      rw [C02_distributedAssign ranks hr _ hnd, C02_distributedAssign ranks hr _ hnd]
      by_cases h : t ∈ taus
      · rw [if_pos ((product_mem hc t _).2 h), if_pos ((product_mem hc t _).2 h)]
        exact C113_gw_dynamic _ _ _ _ (fun a b c d => hW1.tau hP t r a b c d) (fun a b => hg.tau hP t r a b) a b
      · rw [if_neg (fun h' => h ((product_mem hc t _).1 h')), if_neg (fun h' => h ((product_mem hc t _).1 h'))]
        simp
    intro m k a b
    dsimp only
    rw [map_add]
    congr 1
    · rw [← hP.f]
      congr 1
      funext t
      exact herm_rToK (fun r a b => hsd t r a b) k a b
    · exact (C113_fock hr hc hV (C113_density hP hr hc hg) k a b).1

/-- the hypotheses on the transforms: values at a few frequencies and their conjugates -/
def samplePieces : Pieces where
  gToTau x t := x t + x (-t - 1)
  wToTau x t := x t + x (-t)
  toFreq x w := if 0 ≤ w then I * x w.toNat else -I * x (-w - 1).toNat
  tail0 x := x 0
  dens x := x 0 + x (-1)
  ntau nw := 6 * nw + 1

theorem samplePieces_hermitian : HermitianPieces samplePieces where
  g f t := by
    simp only [samplePieces, map_add]
    rw [add_comm, show -(-(t : ℤ) - 1) - 1 = t by ring]
  w f t := by
    simp only [samplePieces, map_add, neg_neg]
    rw [add_comm]
  f f w := by
    simp only [samplePieces]
    by_cases h : 0 ≤ w
    · rw [if_neg (by omega), if_pos h, map_mul, conj_I, show -(-w - 1) - 1 = w by ring]
    · rw [if_pos (by omega), if_neg h, map_mul, map_neg, conj_I, neg_neg]
  t f := by simp [samplePieces]
  d f := by
    simp only [samplePieces, map_add]
    rw [add_comm]
    norm_num

/-! ## The solver -/

variable (p : SolverParams n o)

/-- What the input of the solver has to obey. -/
structure HermitianInput : Prop where
  ranks : 0 < p.ranks
  lat : Complete p.lat
  freqs : p.freqs.Nodup
  conj : ∀ m ∈ p.freqs, -m - 1 ∈ p.freqs
  bfreqs : p.bfreqs.Nodup
  bconj : ∀ m ∈ p.bfreqs, -m ∈ p.bfreqs
  val : ∀ m, p.val (-m - 1) = (starRingEnd ℂ) (p.val m)
  pieces : HermitianPieces p.pieces
  bose : ∀ f w, p.boseFreq (fun t => (starRingEnd ℂ) (f t)) (-w) = (starRingEnd ℂ) (p.boseFreq f w)
  e : ∀ k, (p.e k).IsHermitian
  V : ∀ k a b c d, p.V k a b c d = (starRingEnd ℂ) (p.V k d c b a)
  V0 : ∀ a b c d, p.V 0 a b c d = p.V 0 c d a b

variable {p}

theorem dispatch_herm (h : HermitianInput p) (mu : ℝ) {sigma : G n o} (hs : HermG sigma) :
    HermG (p.dispatch mu (some sigma)) ∧ HermG (p.dispatch mu none) := by
  have hnd := prodMesh_nodup h.freqs h.lat.1
  have hiff : ∀ m, m ∈ p.freqs ↔ -m - 1 ∈ p.freqs := fun m =>
    ⟨h.conj m, fun hm => by have := h.conj _ hm; rwa [show -(-m - 1) - 1 = m by ring] at this⟩
  have hinv : ∀ (A : Matrix o o ℂ) (a b : o), (Aᴴ)⁻¹ a b = (starRingEnd ℂ) (A⁻¹ b a) := by
    intro A a b
    rw [← Matrix.conjTranspose_nonsing_inv]
    rfl
  constructor
  · intro m k a b
    simp only [SolverParams.dispatch, latticeDysonGXk]
    rw [C02_distributedAssign p.ranks h.ranks _ hnd, C02_distributedAssign p.ranks h.ranks _ hnd]
    by_cases hm : m ∈ p.freqs
    · rw [if_pos (mem_prodMesh.2 ⟨(hiff m).1 hm, h.lat.2 k⟩), if_pos (mem_prodMesh.2 ⟨hm, h.lat.2 k⟩), ← hinv]
      have hS : (Sigma.lattice fun w k => Matrix.of (sigma w k)).term (-m - 1) k
          = ((Sigma.lattice fun w k => Matrix.of (sigma w k) : Sigma ℤ (Lat n) o ℂ).term m k)ᴴ := by
        ext i j
        exact hs m k i j
      dsimp only
      rw [hS]
      rw [Matrix.conjTranspose_sub, Matrix.conjTranspose_sub, (h.e k).eq, Matrix.conjTranspose_smul,
        Matrix.conjTranspose_one]
      simp only [h.val, star_add, Complex.star_def, map_zero, conj_ofReal]
    · rw [if_neg fun h' => hm ((hiff m).2 (mem_prodMesh.1 h').1), if_neg fun h' => hm (mem_prodMesh.1 h').1]
      simp
  · intro m k a b
    simp only [SolverParams.dispatch, latticeDysonG0Xk]
    rw [C02_distributedAssign p.ranks h.ranks _ hnd, C02_distributedAssign p.ranks h.ranks _ hnd]
    by_cases hm : m ∈ p.freqs
    · rw [if_pos (mem_prodMesh.2 ⟨(hiff m).1 hm, h.lat.2 k⟩), if_pos (mem_prodMesh.2 ⟨hm, h.lat.2 k⟩), ← hinv]
      rw [Matrix.conjTranspose_sub, (h.e k).eq, Matrix.conjTranspose_smul,
        Matrix.conjTranspose_one]
      simp only [h.val, star_add, Complex.star_def, conj_ofReal]
    · rw [if_neg fun h' => hm ((hiff m).2 (mem_prodMesh.1 h').1), if_neg fun h' => hm (mem_prodMesh.1 h').1]
      simp

theorem dyson_herm (h : HermitianInput p) {mu : ℝ} {sigma : Option (G n o)} (hs : ∀ s ∈ sigma, HermG s) {g : G n o}
    {mu' : ℝ} (hd : p.dyson mu sigma = .ok (g, mu')) : HermG g := by
  have key : ∀ mu, HermG (p.dispatch mu sigma) := by
    intro mu
    cases sigma with
    | none => exact (dispatch_herm h mu (sigma := 0) (fun _ _ _ _ => by simp)).2
    | some s => exact (dispatch_herm h mu (hs s rfl)).1
  unfold SolverParams.dyson at hd
  split_ifs at hd
  · injection hd with hd
    rw [← (Prod.mk.inj hd).1]
    exact key _
  · split at hd
    · exact absurd hd (by simp)
    · injection hd with hd
      rw [← (Prod.mk.inj hd).1]
      exact key _

theorem gTr_herm (h : HermitianInput p) {g : G n o} (hg : HermG g) (t : ℕ) (r : Lat n) (a b : o) :
    p.gTr g t (-r) a b = (starRingEnd ℂ) (p.gTr g t r b a) := hg.tau h.pieces t r a b

theorem polarization_herm (h : HermitianInput p) {g : G n o} (hg : HermG g) : HermW (p.polarization g) := by
  obtain ⟨h1, -, h3⟩ := C113_bubble_tau h.ranks p.L h.lat p.beta (p.gTr g) (gTr_herm h hg)
  intro m k a b c d
  simp only [SolverParams.polarization, Pi.neg_apply, map_neg]
  congr 1
  unfold SolverParams.chi0
  split_ifs with hn
  · by_cases hm : m = 0
    · subst hm
      dsimp only
      rw [neg_zero, if_pos rfl]
      exact h3 k a b c d
    · dsimp only
      rw [if_neg hm, if_neg (by simpa using hm)]
      simp
  · dsimp only
    rw [rToK_apply4, rToK_apply4, conj_rToK]
    congr 1
    funext r
    rw [← h.bose]
    congr 1
    funext t
    rw [← h1, neg_neg]

theorem screened_herm (h : HermitianInput p) (s : Bool) {P : ℤ → Lat n → Bubble.T4 o} (hP : HermW P) :
    HermW fun w k => p.screened s P (w, k) := by
  have hnd := prodMesh_nodup h.bfreqs h.lat.1
  have hiff : ∀ m, m ∈ p.bfreqs ↔ -m ∈ p.bfreqs := fun m =>
    ⟨h.bconj m, fun hm => by have := h.bconj _ hm; rwa [neg_neg] at this⟩
  intro m k a b c d
  simp only [SolverParams.screened]
  rw [C02_distributedAssign p.ranks h.ranks _ hnd, C02_distributedAssign p.ranks h.ranks _ hnd]
  by_cases hm : m ∈ p.bfreqs
  · rw [if_pos (mem_prodMesh.2 ⟨(hiff m).1 hm, h.lat.2 k⟩), if_pos (mem_prodMesh.2 ⟨hm, h.lat.2 k⟩)]
    rw [C17_paths_agree, C17_paths_agree]
    have eV : p.V k = dag (p.V k) := by funext a b c d; exact h.V k a b c d
    have eP : (if s = true then (2 : ℂ) • P (-m) k else P (-m) k) = dag (if s = true then (2 : ℂ) • P m k else P m k) := by
      funext a b c d
      cases s
      · exact hP m k a b c d
      · simp only [if_true, dag, Pi.smul_apply, smul_eq_mul, map_mul, Complex.conj_ofNat]
        rw [hP m k a b c d]
    conv_lhs => rw [eP, eV, (screened_dag _ _).1]
    rfl
  · rw [if_neg fun h' => hm ((hiff m).2 (mem_prodMesh.1 h').1), if_neg fun h' => hm (mem_prodMesh.1 h').1]
    simp

theorem wDyn_apply (hb : p.bfreqs.Nodup) (W : ℤ × Lat n → Bubble.T4 o) (x : ℤ × Lat n) :
    p.wDyn W x = if x.1 ∈ p.bfreqs then W x - p.V x.2 else W x := by
  unfold SolverParams.wDyn
  generalize p.bfreqs = l at hb
  induction l generalizing W with
  | nil => simp
  | cons w l ih =>
    obtain ⟨hw, hl⟩ := List.nodup_cons.1 hb
    rw [List.foldl_cons, ih _ hl]
    by_cases h : x.1 = w
    · subst h
      simp [hw]
    · simp [h]

theorem wDyn_herm (h : HermitianInput p) {W : ℤ × Lat n → Bubble.T4 o} (hW : HermW fun w k => W (w, k)) :
    HermW fun w k => p.wDyn W (w, k) := by
  have hiff : ∀ m, m ∈ p.bfreqs ↔ -m ∈ p.bfreqs := fun m =>
    ⟨h.bconj m, fun hm => by have := h.bconj _ hm; rwa [neg_neg] at this⟩
  intro m k a b c d
  dsimp only
  rw [wDyn_apply h.bfreqs, wDyn_apply h.bfreqs]
  dsimp only
  have hw := hW m k a b c d
  dsimp only at hw
  by_cases hm : m ∈ p.bfreqs
  · rw [if_pos hm, if_pos ((hiff m).1 hm)]
    simp only [Pi.sub_apply, map_sub]
    rw [hw, h.V k a b c d]
  · rw [if_neg hm, if_neg fun h' => hm ((hiff m).2 h'), hw]

theorem sigmaDyn_herm (h : HermitianInput p) {W : ℤ × Lat n → Bubble.T4 o} (hW : HermW fun w k => W (w, k)) {g : G n o}
    (hg : HermG g) : HermG (p.sigmaDyn W g) := by
  have hnd : ((List.range (p.L + 1)).product p.lat).Nodup := List.nodup_range.product h.lat.1
  intro m k a b
  simp only [SolverParams.sigmaDyn]
  rw [rToK_apply2, rToK_apply2, conj_rToK]
  congr 1
  funext r
  rw [← h.pieces.f]
  congr 1
  funext t
  rw [C02_distributedAssign p.ranks h.ranks _ hnd, C02_distributedAssign p.ranks h.ranks _ hnd]
  by_cases ht : t ∈ List.range (p.L + 1)
  · rw [if_pos ((product_mem h.lat t _).2 ht), if_pos ((product_mem h.lat t _).2 ht)]
    refine C113_gw_dynamic _ _ _ _ (fun a b c d => ?_) (fun a b => ?_) a b
    · have := hW.tau h.pieces t (-r) a b c d
      rwa [neg_neg] at this
    · have := gTr_herm h hg t (-r) a b
      rwa [neg_neg] at this
  · rw [if_neg (fun h' => ht ((product_mem h.lat t _).1 h')), if_neg (fun h' => ht ((product_mem h.lat t _).1 h'))]
    simp

/-- everything a pass of the loop computes is hermitian -/
theorem sweep_herm (h : HermitianInput p) (f : Flags) {mu : ℝ} {g : G n o} (hg : HermG g) {s : Sweep n o}
    (hs : p.sweep f mu g = .ok s) : HermG s.g ∧ HermG s.sigma ∧ HermW s.P ∧ HermW fun w k => s.W (w, k) := by
  have hrho := C113_density h.pieces h.ranks h.lat hg
  have hP := polarization_herm h hg
  have hW := screened_herm h f.spinless hP
  have hD := sigmaDyn_herm h (wDyn_herm h hW) hg
  have hH : ∀ k a b, p.sigmaHartree g k a b = (starRingEnd ℂ) (p.sigmaHartree g k b a) :=
    C113_hartree (h.V 0) h.V0 hrho
  have hF : ∀ k a b, p.sigmaFock g k a b = (starRingEnd ℂ) (p.sigmaFock g k b a) := fun k a b =>
    (C113_fock h.ranks h.lat h.V hrho k a b).1
  unfold SolverParams.sweep at hs
  dsimp only at hs
  split at hs
  · exact absurd hs (by simp)
  · rename_i g' mu' hd
    injection hs with hs
    subst hs
    have z : HermG (fun _ _ => 0 : G n o) := fun _ _ _ _ => by simp
    have add : ∀ {x y : G n o}, HermG x → HermG y → HermG (fun w k => x w k + y w k) := by
      intro x y hx hy m k a b
      simp only [Pi.add_apply, map_add]
      rw [hx, hy]
    have ite : ∀ (b : Bool) {x y : G n o}, HermG x → HermG y → HermG (if b = true then x else y) := by
      intro b x y hx hy
      cases b <;> assumption
    have hH' : HermG (fun _ => p.sigmaHartree g : G n o) := fun _ => hH
    have hF' : HermG (fun _ => p.sigmaFock g : G n o) := fun _ => hF
    have h1 := ite f.hartree (add z hH') z
    have h2 := ite f.fock (add h1 hF') h1
    have hsig := ite f.gw (add h2 hD) h2
    exact ⟨dyson_herm h (fun s hs => by rw [Option.mem_some_iff] at hs; exact hs ▸ hsig) hd, hsig, hP, hW⟩

theorem loop_herm (h : HermitianInput p) (f : Flags) (tol : ℝ) : ∀ (fuel : ℕ) (mu : ℝ) (g : G n o) (old : Option (G n o))
    (last : Option (Sweep n o)) (_ : HermG g) (_ : ∀ s ∈ last, HermG s.g ∧ HermG s.sigma ∧ HermW s.P ∧ HermW fun w k => s.W (w, k))
    {res : Option (Sweep n o)} (_ : p.loop f tol fuel mu g old last = .ok res),
    ∀ s ∈ res, HermG s.g ∧ HermG s.sigma ∧ HermW s.P ∧ HermW fun w k => s.W (w, k) := by
  intro fuel
  induction fuel with
  | zero =>
    intro mu g old last hg hl res hres
    simp only [SolverParams.loop] at hres
    injection hres with hres
    exact hres ▸ hl
  | succ fuel ih =>
    intro mu g old last hg hl res hres
    rw [SolverParams.loop] at hres
    split at hres
    · exact absurd hres (by simp)
    · rename_i s hsw
      have hs := sweep_herm h f hg hsw
      split_ifs at hres
      · injection hres with hres
        intro s' hs'
        rw [← hres, Option.mem_some_iff] at hs'
        exact hs' ▸ hs
      · exact ih _ _ _ _ hs.1 (fun s' hs' => by rw [Option.mem_some_iff] at hs'; exact hs' ▸ hs) hres

/-- C113: the GW solver, started from its own or a given hermitian Green's function, reports a hermitian Green's function
and self energy, hermitian density matrices, and the real part in the number of electrons drops nothing. -/
theorem C113_gw_solver (h : HermitianInput p) {mu : Option ℝ} {g : Option (G n o)} (hg : ∀ g' ∈ g, HermG g')
    {s0 s : SolverState n o} (hi : p.init mu g = .ok s0) (f : Flags) (tol : ℝ) (maxiter : ℕ)
    (hs : p.solveIter f tol maxiter s0 = .ok s) :
    HermG s.g ∧ HermG s.sigma ∧
      (∀ rho ∈ s.rhoK, ∀ k a b, rho k a b = (starRingEnd ℂ) (rho k b a)) ∧
      ∀ rho ∈ s.rhoR, ∀ N ∈ s.N, ((N : ℝ) : ℂ) = ∑ a, rho 0 a a := by
  have h0 : HermG s0.g := by
    unfold SolverParams.init at hi
    dsimp only at hi
    split at hi
    · exact absurd hi (by simp)
    · rename_i g0 mu0 hd
      cases g with
      | none =>
        injection hi with hi
        subst hi
        exact dyson_herm h (fun s hs => by simp at hs) hd
      | some g1 =>
        injection hi with hi
        subst hi
        exact hg g1 rfl
  have hN : ∀ g : G n o, HermG g → ((totalDensity (p.rhoR g) : ℝ) : ℂ) = ∑ a, p.rhoR g 0 a a := by
    intro g hg
    rw [totalDensity, ofReal_sum]
    refine Finset.sum_congr rfl fun a _ => ?_
    have h1 : p.rhoR g (-0) a a = (starRingEnd ℂ) (p.rhoR g 0 a a) :=
      herm_kToR (C113_density h.pieces h.ranks h.lat hg) 0 a a
    rw [neg_zero] at h1
    exact conj_eq_iff_re.1 h1.symm
  have hz : HermG (0 : G n o) := fun _ _ _ _ => by simp
  unfold SolverParams.solveIter at hs
  split at hs
  · exact absurd hs (by simp)
  · rename_i last hl
    have hL := loop_herm h f tol maxiter s0.mu s0.g none none h0 (fun s hs => by simp at hs) hl
    unfold SolverParams.finish at hs
    cases last with
    | none =>
      dsimp only at hs
      split_ifs at hs
      injection hs with hs
      subst hs
      refine ⟨h0, hz, fun rho hrho => ?_, fun rho hrho N hNN => ?_⟩
      · rw [Option.mem_some_iff] at hrho
        subst hrho
        exact C113_density h.pieces h.ranks h.lat h0
      · rw [Option.mem_some_iff] at hrho hNN
        subst hrho
        subst hNN
        exact hN _ h0
    | some t =>
      obtain ⟨ht1, ht2, -, -⟩ := hL t rfl
      injection hs with hs
      subst hs
      refine ⟨ht1, ht2, fun rho hrho => ?_, fun rho hrho N hNN => ?_⟩
      · rw [Option.mem_some_iff] at hrho
        subst hrho
        exact C113_density h.pieces h.ranks h.lat ht1
      · rw [Option.mem_some_iff] at hrho hNN
        subst hrho
        subst hNN
        exact hN _ ht1

/-! ## The hypotheses hold for the transforms of the code -/

/-- The transforms of `Verif/Fourier/Model.lean` with the moments `1, 0, 0` for Green's functions and none for the
interaction;  the density is minus the value at `β`. -/
def codePieces (beta : ℝ) (L N : ℕ) : Pieces where
  gToTau x := match Fourier.wToTau .fermion beta L N 1 0 0 x with | .ok f => f | .error _ => fun _ => 0
  wToTau x := match Fourier.wToTau .boson beta L N 0 0 0 x with | .ok f => f | .error _ => fun _ => 0
  toFreq x := match Fourier.tauToWFit .fermion beta L N x with | .ok f => f | .error _ => fun _ => 0
  tail0 _ := 0
  dens x := match Fourier.wToTau .fermion beta L N 1 0 0 x with | .ok f => -f L | .error _ => 0
  ntau nw := 6 * nw + 1

theorem codePieces_hermitian (beta : ℝ) (hb : 0 < beta) (L N : ℕ) (hL : 0 < L) : HermitianPieces (codePieces beta L N) := by
  have ok : ∀ s m1 x, 2 * N ≤ L → ∃ f, Fourier.wToTau s beta L N m1 0 0 x = .ok f := by
    intro s m1 x h
    exact ⟨_, by rw [Fourier.wToTau, if_neg (by omega)]⟩
  have bad : ∀ s m1 x, ¬2 * N ≤ L → ∃ e, Fourier.wToTau s beta L N m1 0 0 x = .error e := by
    intro s m1 x h
    exact ⟨_, by rw [Fourier.wToTau, if_pos (by omega)]⟩
  have gen : ∀ s (m1 : ℂ) (_ : (starRingEnd ℂ) m1 = m1) (x : ℤ → ℂ) f, Fourier.wToTau s beta L N m1 0 0 x = .ok f →
      Fourier.wToTau s beta L N m1 0 0 (fun w => (starRingEnd ℂ) (x (cj s w))) = .ok fun t => (starRingEnd ℂ) (f t) := by
    intro s m1 h1 x f hf
    have h := C113_w_to_tau s beta hb L N hL m1 0 0 x (fun w => (starRingEnd ℂ) (x (cj s w)))
      (fun m _ => by rw [cj_cj]) f hf
    rwa [h1, map_zero] at h
  refine ⟨fun x t => ?_, fun x t => ?_, fun x w => ?_, fun x => ?_, fun x => ?_⟩
  · by_cases h : 2 * N ≤ L
    · obtain ⟨f, hf⟩ := ok .fermion 1 x h
      have h2 := gen .fermion 1 (map_one _) x f hf
      simp only [codePieces, hf]
      simp only [cj] at h2
      rw [h2]
    · obtain ⟨e, he⟩ := bad .fermion 1 x h
      obtain ⟨e', he'⟩ := bad .fermion 1 (fun w => (starRingEnd ℂ) (x (-w - 1))) h
      simp only [codePieces, he, he', map_zero]
  · by_cases h : 2 * N ≤ L
    · obtain ⟨f, hf⟩ := ok .boson 0 x h
      have h2 := gen .boson 0 (map_zero _) x f hf
      simp only [codePieces, hf]
      simp only [cj] at h2
      rw [h2]
    · obtain ⟨e, he⟩ := bad .boson 0 x h
      obtain ⟨e', he'⟩ := bad .boson 0 (fun w => (starRingEnd ℂ) (x (-w))) h
      simp only [codePieces, he, he', map_zero]
  · cases hf : Fourier.tauToWFit .fermion beta L N x with
    | ok f =>
      obtain ⟨f', h1, h2⟩ := C113_tau_to_w_fit .fermion beta hb L N hL x f hf
      simp only [codePieces, hf, h1]
      exact h2 w
    | error e =>
      cases hf' : Fourier.tauToWFit .fermion beta L N (fun t => (starRingEnd ℂ) (x t)) with
      | ok f' =>
        obtain ⟨f, h1, -⟩ := C113_tau_to_w_fit .fermion beta hb L N hL _ f' hf'
        simp only [Complex.conj_conj] at h1
        rw [hf] at h1
        cases h1
      | error e' => simp only [codePieces, hf, hf', map_zero]
  · simp only [codePieces, map_zero]
  · by_cases h : 2 * N ≤ L
    · obtain ⟨f, hf⟩ := ok .fermion 1 x h
      have h2 := gen .fermion 1 (map_one _) x f hf
      simp only [codePieces, hf]
      simp only [cj] at h2
      rw [h2, map_neg]
    · obtain ⟨e, he⟩ := bad .fermion 1 x h
      obtain ⟨e', he'⟩ := bad .fermion 1 (fun w => (starRingEnd ℂ) (x (-w - 1))) h
      simp only [codePieces, he, he', map_zero]

/-- the hypotheses of the solver theorem: two orbitals with a complex hopping on two sites, two fermionic and three
bosonic frequencies, the transforms of the code -/
example : ∃ p : SolverParams (fun _ : Fin 1 => 2) (Fin 2), HermitianInput p ∧ (p.e 0 0 1).im ≠ 0 ∧ p.V 0 0 0 1 1 ≠ 0 := by
  let bf : (ℕ → ℂ) → ℤ → ℂ := fun x =>
    match Fourier.tauToWFit .boson 1 8 2 x with | .ok f => f | .error _ => fun _ => 0
  refine ⟨{
    ranks := 1, lat := (Finset.univ : Finset (Lat fun _ : Fin 1 => 2)).toList, freqs := [-1, 0], bfreqs := [-1, 0, 1], nw := 1,
    beta := 1, L := 8, val := Fourier.matsubara .fermion 1, pieces := codePieces 1 8 1, boseFreq := bf,
    e := fun _ => !![1, I; -I, 2], V := fun _ _ _ _ _ => 3, nFix := 0, bracket := (0, 1), brentq := fun _ _ _ => .ok 0 }, ?_, ?_, ?_⟩
  · refine ⟨Nat.one_pos, ⟨Finset.nodup_toList _, fun k => by simp⟩, by simp, ?_, by simp, ?_, fun m => conj_matsubara .fermion 1 m,
      codePieces_hermitian 1 one_pos 8 1 (by norm_num), ?_, ?_, ?_, fun _ _ _ _ => rfl⟩
    · intro m hm
      simp only [List.mem_cons, List.not_mem_nil, or_false] at hm ⊢
      omega
    · intro m hm
      simp only [List.mem_cons, List.not_mem_nil, or_false] at hm ⊢
      omega
    · intro x w
      have h := C113_tau_to_w_fit .boson 1 one_pos 8 2 (by norm_num) x _ rfl
      obtain ⟨f', h1, h2⟩ := h
      simp only [bf]
      rw [h1]
      exact h2 w
    · intro k
      ext i j
      fin_cases i <;> fin_cases j <;> simp [Complex.conj_ofNat]
    · intro k a b c d
      rw [Complex.conj_ofNat]
  · simp
  · simp

end Verif.Herm
