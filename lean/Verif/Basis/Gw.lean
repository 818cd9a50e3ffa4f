import Verif.Basis.Interactions
import Verif.Gw.SolverProps

/-!
# C104: change of basis for the self energies and the self consistent GW solver
-/

set_option linter.unusedSectionVars false

noncomputable section

namespace Verif.Basis

open Matrix Verif.Fourier Verif.Bubble Verif.Parallel Verif.Gw

variable {o : Type} [Fintype o] [DecidableEq o] {d : ℕ} {n : Fin d → ℕ} [∀ i, NeZero (n i)] {S : Matrix o o ℂ}

/-! ## Self energies -/

theorem hartreeR_rot (hS : Unitary S) (v : Lat n → Bubble.T4 o) (rho : Lat n → o → o → ℂ) (r : Lat n) :
    hartreeR (fun k => rotV S (v k)) (fun r => rotRho S (rho r)) r = rotG S (hartreeR v rho r) := by
  unfold hartreeR
  by_cases h : r = 0
  · subst h
    rw [Function.update_self, Function.update_self]
    exact contract_rot S (cj S) S (cj S) (cj S) S hS.tcj hS.cjT (v 0) (rho 0)
  · rw [Function.update_of_ne h, Function.update_of_ne h]
    exact (map_zero (rot2L S (cj S))).symm

theorem fock_point (hS : Unitary S) (v : Bubble.T4 o) (rho : o → o → ℂ) :
    (fun a b => ∑ c, ∑ d, -rotV S v a c d b * rotRho S rho d c)
      = rot2 S (cj S) fun a b => ∑ c, ∑ d, -v a c d b * rho d c := by
  have h1 := contract_rot S (cj S) (cj S) S S (cj S) hS.cjT hS.tcj ((-1 : ℂ) • fun a b c d => v a c d b)
    (fun c d => rho d c)
  rw [rot4_smul, ← rot4_acdb, ← rot2_transpose] at h1
  have h2 : contract ((-1 : ℂ) • fun a b c d => v a c d b) (fun c d => rho d c)
      = fun a b => ∑ c, ∑ d, -v a c d b * rho d c := by
    funext a b
    simp only [contract, Pi.smul_apply, smul_eq_mul, neg_mul, one_mul]
  rw [h2] at h1
  rw [← h1]
  funext a b
  simp only [contract, Pi.smul_apply, smul_eq_mul, neg_mul, one_mul]
  rfl

theorem gwPoint_rot (hS : Unitary S) (W : Bubble.T4 o) (g : o → o → ℂ) :
    gwPoint (rotV S W) (rotG S g) = rotG S (gwPoint W g) := by
  have h1 := contract_rot S (cj S) (cj S) S S (cj S) hS.cjT hS.tcj ((-1 : ℂ) • fun a b c d => W a c d b) g
  rw [rot4_smul, ← rot4_acdb] at h1
  have h2 : contract ((-1 : ℂ) • fun a b c d => W a c d b) g = gwPoint W g := by
    funext a b
    simp only [contract, gwPoint, Pi.smul_apply, smul_eq_mul, neg_mul, one_mul]
  rw [h2] at h1
  refine Eq.trans ?_ h1
  funext a b
  simp only [contract, gwPoint, Pi.smul_apply, smul_eq_mul, neg_mul, one_mul]
  rfl

/-- distributed assignment of rotated matrices -/
theorem assign_rotG {P : Type*} [DecidableEq P] (ranks : ℕ) (mesh : List P) (f : P → o → o → ℂ) :
    distributedAssign ranks mesh (fun x => rot2 S (cj S) (f x))
      = fun x => rot2 S (cj S) (distributedAssign ranks mesh f x) :=
  funext fun x => distributedAssign_map (rot2L S (cj S)).toAddMonoidHom ranks mesh f x

/-- C104: static self energies from density matrices in real space. -/
theorem C104_gw_static (hS : Unitary S) (ranks : ℕ) (rmesh : List (Lat n)) (v : Lat n → Bubble.T4 o)
    (rho : Lat n → o → o → ℂ) (r : Lat n) :
    hartreeR (fun k => rotV S (v k)) (fun r => rotRho S (rho r)) r = rotG S (hartreeR v rho r) ∧
    fockR ranks rmesh (fun r => rotV S (v r)) (fun r => rotRho S (rho r)) r = rotG S (fockR ranks rmesh v rho r) := by
  refine ⟨hartreeR_rot hS v rho r, ?_⟩
  have h : (fun r a b => ∑ c, ∑ d, -rotV S (v r) a c d b * rotRho S (rho r) d c)
      = fun r => rot2 S (cj S) fun a b => ∑ c, ∑ d, -v r a c d b * rho r d c := funext fun r => fock_point hS (v r) (rho r)
  have h2 := congrFun (assign_rotG (S := S) ranks rmesh fun r a b => ∑ c, ∑ d, -v r a c d b * rho r d c) r
  rw [← h] at h2
  exact h2

/-- C104: the dynamic self energy in imaginary time. -/
theorem C104_gw_dynamic {M : Type} (hS : Unitary S) (ranks : ℕ) (Wt gt : TauMesh) (Wr gr : M) (mesh : List (ℕ × Lat n))
    (W : ℕ → Lat n → Bubble.T4 o) (g : ℕ → Lat n → o → o → ℂ) :
    gwDynamicSigma ranks Wt gt Wr gr mesh (fun t r => rotV S (W t r)) (fun t r => rotG S (g t r))
      = (gwDynamicSigma ranks Wt gt Wr gr mesh W g).map fun s x => rotG S (s x) := by
  unfold gwDynamicSigma
  simp only [gwPoint_rot hS]
  split_ifs
  · rfl
  · rfl
  · rfl
  · exact congrArg Except.ok (assign_rotG ranks mesh fun p => gwPoint (W p.1 p.2) (g p.1 p.2))

/-! ## Solver -/

/-- The transforms between time and frequency and the density functional are linear. -/
structure LinearPieces (p : SolverParams n o) : Prop where
  gToTau : IsLinearMap ℂ p.pieces.gToTau
  wToTau : IsLinearMap ℂ p.pieces.wToTau
  toFreq : IsLinearMap ℂ p.pieces.toFreq
  dens : IsLinearMap ℂ p.pieces.dens
  boseFreq : IsLinearMap ℂ p.boseFreq

/-- the same calculation set up in the rotated basis; the search range of the chemical potential is kept -/
def rotParams (S : Matrix o o ℂ) (p : SolverParams n o) : SolverParams n o :=
  { p with
    e := fun k => rotG S (p.e k)
    V := fun k => rotV S (p.V k) }

/-- rotated Green's function or self energy -/
def rotW {W : Type*} (S : Matrix o o ℂ) (g : W → Lat n → o → o → ℂ) : W → Lat n → o → o → ℂ := fun w k => rotG S (g w k)

/-- the results of one pass in the rotated basis -/
def rotSweep (S : Matrix o o ℂ) (s : Sweep n o) : Sweep n o :=
  { g := rotW S s.g
    mu := s.mu
    sigma := rotW S s.sigma
    hartree := fun k => rotG S (s.hartree k)
    fock := fun k => rotG S (s.fock k)
    dyn := rotW S s.dyn
    P := fun w k => rotChi S (s.P w k)
    W := fun x => rotV S (s.W x)
    wDyn := fun x => rotV S (s.wDyn x) }

variable {p : SolverParams n o}

theorem rhoK_rot (hl : LinearPieces p) (g : G n o) :
    (rotParams S p).rhoK (rotW S g) = fun k => rotRho S (p.rhoK g k) := by
  have h : ∀ k, densityOf p.pieces (fun w => rotW S g w k) = rotRho S (densityOf p.pieces fun w => g w k) := by
    intro k
    funext i j
    have h1 := rot2_pointwise S (cj S) (hl.dens.mk' _) (fun w => g w k) j i
    have h2 := congrFun (congrFun (rot2_transpose (cj S) S fun a b => p.pieces.dens fun w => g w k a b) i) j
    exact h1.trans h2
  unfold SolverParams.rhoK Gw.rhoK
  simp only [rotParams, h]
  funext k
  exact distributedAssign_map (rot2L (cj S) S).toAddMonoidHom p.ranks p.lat _ k

theorem rhoR_rot (hl : LinearPieces p) (g : G n o) :
    (rotParams S p).rhoR (rotW S g) = fun r => rotRho S (p.rhoR g r) := by
  unfold SolverParams.rhoR
  rw [rhoK_rot hl]
  funext r
  exact kToR_map (rot2L (cj S) S) _ r

theorem totalDensity_rot (hS : Unitary S) (rho : Lat n → o → o → ℂ) :
    totalDensity (fun r => rotRho S (rho r)) = totalDensity rho := by
  unfold totalDensity
  rw [← Complex.re_sum, ← Complex.re_sum]
  congr 1
  simp only [rotRho, rot2]
  rw [Finset.sum_comm]
  refine Finset.sum_congr rfl fun a' _ => ?_
  rw [Finset.sum_comm]
  have h : ∀ b', ∑ a, cj S a a' * S a b' * rho 0 a' b' = (if a' = b' then 1 else 0) * rho 0 a' b' := by
    intro b'
    have h1 := congrFun (congrFun hS a') b'
    rw [Matrix.mul_apply, Matrix.one_apply] at h1
    rw [← h1, Finset.sum_mul]
    rfl
  simp only [h, ite_mul, one_mul, zero_mul, Finset.sum_ite_eq, Finset.mem_univ, if_true]

theorem sigmaHartree_rot (hS : Unitary S) (hl : LinearPieces p) (g : G n o) :
    (rotParams S p).sigmaHartree (rotW S g) = fun k => rotG S (p.sigmaHartree g k) := by
  unfold SolverParams.sigmaHartree
  rw [rhoR_rot hl]
  funext k
  have h : hartreeR (rotParams S p).V (fun r => rotRho S (p.rhoR g r))
      = fun r => rot2L S (cj S) (hartreeR p.V (p.rhoR g) r) := funext fun r => hartreeR_rot hS _ _ r
  rw [h, rToK_map]
  rfl

theorem sigmaFock_rot (hS : Unitary S) (hl : LinearPieces p) (g : G n o) :
    (rotParams S p).sigmaFock (rotW S g) = fun k => rotG S (p.sigmaFock g k) := by
  unfold SolverParams.sigmaFock
  rw [rhoR_rot hl]
  funext k
  have hv : kToR (rotParams S p).V = fun r => rotV S (kToR p.V r) :=
    funext fun r => kToR_map (rot4L S (cj S) S (cj S)) p.V r
  have h : fockR (rotParams S p).ranks (rotParams S p).lat (kToR (rotParams S p).V) (fun r => rotRho S (p.rhoR g r))
      = fun r => rot2L S (cj S) (fockR p.ranks p.lat (kToR p.V) (p.rhoR g) r) := by
    rw [hv]
    exact funext fun r => (C104_gw_static hS p.ranks p.lat _ _ r).2
  rw [h, rToK_map]
  rfl

theorem gTr_rot (hl : LinearPieces p) (g : G n o) :
    (rotParams S p).gTr (rotW S g) = fun t r => rotG S (p.gTr g t r) := by
  funext t r a b
  have h1 : ∀ w, kToR (rotW S g w) r a b = rot2 S (cj S) (kToR (g w) r) a b := fun w =>
    congrFun (congrFun (kToR_map (rot2L S (cj S)) (g w) r) a) b
  have h2 := rot2_pointwise S (cj S) ((LinearMap.proj t).comp (hl.gToTau.mk' _)) (fun w => kToR (g w) r) a b
  unfold SolverParams.gTr
  simp only [h1]
  exact h2

theorem chi0_rot (hl : LinearPieces p) (g : G n o) (w : ℤ) (k : Lat n) :
    (rotParams S p).chi0 (rotW S g) w k = rotChi S (p.chi0 g w k) := by
  unfold SolverParams.chi0
  rw [gTr_rot hl]
  by_cases h0 : p.nw = 1
  · have h0' : (rotParams S p).nw = 1 := h0
    rw [if_pos h0, if_pos h0']
    by_cases h1 : w = 0
    · simp only [h1, if_true]
      have h2 : chi0W0r p.ranks p.beta p.L p.lat (fun t r => rotG S (p.gTr g t r))
          = fun r => rot4L (cj S) S (cj S) S (chi0W0r p.ranks p.beta p.L p.lat (p.gTr g) r) :=
        funext fun r => C104_bubble_static p.ranks p.beta p.L p.lat (p.gTr g) r
      have h3 := rToK_map (rot4L (cj S) S (cj S) S) (chi0W0r p.ranks p.beta p.L p.lat (p.gTr g)) k
      rw [← h2] at h3
      exact h3
    · simp only [h1, if_false]
      exact (map_zero (rot4L (cj S) S (cj S) S)).symm
  · have h0' : ¬(rotParams S p).nw = 1 := h0
    rw [if_neg h0, if_neg h0']
    have h2 : (fun r (a b c d : o) => p.boseFreq
        (fun t => chi0tr p.ranks p.L p.lat (fun t r => rotG S (p.gTr g t r)) r t a b c d) w)
        = fun r => rot4L (cj S) S (cj S) S fun a b c d =>
          p.boseFreq (fun t => chi0tr p.ranks p.L p.lat (p.gTr g) r t a b c d) w := by
      funext r a b c d
      simp only [C104_bubble_time]
      exact rot4_pointwise (cj S) S (cj S) S ((LinearMap.proj w).comp (hl.boseFreq.mk' _))
        (fun t => chi0tr p.ranks p.L p.lat (p.gTr g) r t) a b c d
    have h3 := rToK_map (rot4L (cj S) S (cj S) S) (fun r a b c d =>
      p.boseFreq (fun t => chi0tr p.ranks p.L p.lat (p.gTr g) r t a b c d) w) k
    rw [← h2] at h3
    exact h3

theorem polarization_rot (hl : LinearPieces p) (g : G n o) :
    (rotParams S p).polarization (rotW S g) = fun w k => rotChi S (p.polarization g w k) := by
  funext w k
  unfold SolverParams.polarization
  rw [chi0_rot hl]
  exact (map_neg (rot4L (cj S) S (cj S) S) _).symm

theorem screened_rot (hS : Unitary S) (spinless : Bool) (P : ℤ → Lat n → Bubble.T4 o) :
    (rotParams S p).screened spinless (fun w k => rotChi S (P w k)) = fun x => rotV S (p.screened spinless P x) := by
  have h : ∀ x : ℤ × Lat n, (if spinless = true then (2 : ℂ) • rotChi S (P x.1 x.2) else rotChi S (P x.1 x.2))
      = rotChi S (if spinless = true then (2 : ℂ) • P x.1 x.2 else P x.1 x.2) := by
    intro x
    split_ifs
    · exact (rot4_smul _ _ _ _ _ _).symm
    · rfl
  unfold SolverParams.screened
  simp only [h, rotParams, Rpa.C17_paths_agree, screenedBubblePoint_rot hS]
  funext x
  exact distributedAssign_map (rot4L S (cj S) S (cj S)).toAddMonoidHom _ _ _ x

theorem rotV_sub (A B : Bubble.T4 o) : rotV S (A - B) = rotV S A - rotV S B := map_sub (rot4L S (cj S) S (cj S)) A B

theorem wDyn_rot (W : ℤ × Lat n → Bubble.T4 o) :
    (rotParams S p).wDyn (fun x => rotV S (W x)) = fun x => rotV S (p.wDyn W x) := by
  unfold SolverParams.wDyn
  simp only [rotParams]
  generalize p.bfreqs = l
  induction l generalizing W with
  | nil => rfl
  | cons w l ih =>
    simp only [List.foldl_cons]
    rw [← ih]
    congr 1
    funext x
    split_ifs
    · exact (rotV_sub _ _).symm
    · rfl

theorem sigmaDyn_rot (hS : Unitary S) (hl : LinearPieces p) (W : ℤ × Lat n → Bubble.T4 o) (g : G n o) :
    (rotParams S p).sigmaDyn (fun x => rotV S (W x)) (rotW S g) = rotW S (p.sigmaDyn W g) := by
  have hW : ∀ t r, (fun a b c d => p.pieces.wToTau (fun w => kToR (fun k => rotV S (W (w, k))) r a b c d) t)
      = rotV S fun a b c d => p.pieces.wToTau (fun w => kToR (fun k => W (w, k)) r a b c d) t := by
    intro t r
    funext a b c d
    have h1 : ∀ w, kToR (fun k => rotV S (W (w, k))) r = rotV S (kToR (fun k => W (w, k)) r) := fun w =>
      kToR_map (rot4L S (cj S) S (cj S)) (fun k => W (w, k)) r
    simp only [h1]
    exact rot4_pointwise S (cj S) S (cj S) ((LinearMap.proj t).comp (hl.wToTau.mk' _))
      (fun w => kToR (fun k => W (w, k)) r) a b c d
  unfold SolverParams.sigmaDyn
  rw [gTr_rot hl]
  simp only [rotParams, hW, gwPoint_rot hS]
  funext w k a b
  have hs := assign_rotG (S := S) p.ranks ((List.range (p.L + 1)).product p.lat) fun x : ℕ × Lat n =>
    gwPoint (fun a b c d => p.pieces.wToTau (fun w => kToR (fun k => W (w, k)) x.2 a b c d) x.1) (p.gTr g x.1 x.2)
  simp only [rotG]
  rw [hs]
  set s := distributedAssign p.ranks ((List.range (p.L + 1)).product p.lat) fun x : ℕ × Lat n =>
    gwPoint (fun a b c d => p.pieces.wToTau (fun w => kToR (fun k => W (w, k)) x.2 a b c d) x.1) (p.gTr g x.1 x.2)
  have h3 : (fun r (a b : o) => p.pieces.toFreq (fun t => rot2 S (cj S) (s (t, r)) a b) w)
      = fun r => rot2L S (cj S) fun a b => p.pieces.toFreq (fun t => s (t, r) a b) w := by
    funext r a b
    exact rot2_pointwise S (cj S) ((LinearMap.proj w).comp (hl.toFreq.mk' _)) (fun t => s (t, r)) a b
  rw [h3, rToK_map]
  rfl

theorem dispatch_rot (hS : Unitary S) (mu : ℝ) (s : Option (ℤ → Lat n → o → o → ℂ)) :
    (rotParams S p).dispatch mu (s.map (rotW S)) = rotW S (p.dispatch mu s) := by
  cases s with
  | none =>
    funext w k
    exact C104_dyson_free hS p.ranks _ p.val p.freqs p.lat p.e (w, k)
  | some s =>
    funext w k
    exact C104_dyson hS p.ranks _ p.val p.freqs p.lat p.e (.lattice fun w k => Matrix.of (s w k)) 0 (w, k)

theorem target_rot (hS : Unitary S) (hl : LinearPieces p) (s : Option (ℤ → Lat n → o → o → ℂ)) :
    (rotParams S p).target (s.map (rotW S)) = p.target s := by
  funext mu
  unfold SolverParams.target
  rw [dispatch_rot hS, rhoR_rot hl, totalDensity_rot hS]
  rfl

theorem dyson_rot (hS : Unitary S) (hl : LinearPieces p) (mu : ℝ) (s : Option (ℤ → Lat n → o → o → ℂ)) :
    (rotParams S p).dyson mu (s.map (rotW S)) = (p.dyson mu s).map fun x => (rotW S x.1, x.2) := by
  unfold SolverParams.dyson
  rw [target_rot hS hl]
  have hb : (rotParams S p).brentq = p.brentq := rfl
  have hc : (rotParams S p).bracket = p.bracket := rfl
  have hn : (rotParams S p).nFix = p.nFix := rfl
  rw [hb, hc, hn]
  simp only [dispatch_rot hS]
  split_ifs
  · rfl
  · cases p.brentq (p.target s) p.bracket.1 p.bracket.2 <;> rfl

/-- sum of the parts of the self energy as in the loop -/
def parts (f : Flags) (sH sF : Lat n → o → o → ℂ) (sD : ℤ → Lat n → o → o → ℂ) : ℤ → Lat n → o → o → ℂ :=
  let s0 : ℤ → Lat n → o → o → ℂ := fun _ _ => 0
  let s1 := if f.hartree then fun w k => s0 w k + sH k else s0
  let s2 := if f.fock then fun w k => s1 w k + sF k else s1
  if f.gw then fun w k => s2 w k + sD w k else s2

theorem parts_rot (f : Flags) (sH sF : Lat n → o → o → ℂ) (sD : ℤ → Lat n → o → o → ℂ) :
    parts f (fun k => rotG S (sH k)) (fun k => rotG S (sF k)) (rotW S sD) = rotW S (parts f sH sF sD) := by
  funext w k
  have h : ∀ x y : o → o → ℂ, rot2L S (cj S) x + rot2L S (cj S) y = rot2L S (cj S) (x + y) :=
    fun x y => (map_add _ x y).symm
  have h0 : (0 : o → o → ℂ) = rot2L S (cj S) 0 := (map_zero _).symm
  change parts f (fun k => rot2L S (cj S) (sH k)) (fun k => rot2L S (cj S) (sF k)) (fun w k => rot2L S (cj S) (sD w k)) w k
    = rot2L S (cj S) (parts f sH sF sD w k)
  obtain ⟨a, b, c, e⟩ := f
  cases a <;> cases b <;> cases c <;> simp [parts]

/-- C104: one pass of the self consistency loop of the GW solver, in the rotated basis and with the same search range for
the chemical potential, gives the same chemical potential and the rotated Green's function, self energies,
polarisation and screened interaction. -/
theorem C104_gw_sweep (hS : Unitary S) (hl : LinearPieces p) (f : Flags) (mu : ℝ) (g : G n o) :
    (rotParams S p).sweep f mu (rotW S g) = (p.sweep f mu g).map (rotSweep S) := by
  have hp : ∀ (q : SolverParams n o) (g : G n o), q.sweep f mu g = (q.dyson mu (some (parts f (q.sigmaHartree g)
      (q.sigmaFock g) (q.sigmaDyn (q.wDyn (q.screened f.spinless (q.polarization g))) g)))).map fun x =>
      ⟨x.1, x.2, parts f (q.sigmaHartree g)
          (q.sigmaFock g) (q.sigmaDyn (q.wDyn (q.screened f.spinless (q.polarization g))) g), q.sigmaHartree g,
          q.sigmaFock g, q.sigmaDyn (q.wDyn (q.screened f.spinless (q.polarization g))) g, q.polarization g,
          q.screened f.spinless (q.polarization g), q.wDyn (q.screened f.spinless (q.polarization g))⟩ := by
    intro q g
    unfold SolverParams.sweep parts
    dsimp only
    split <;> rename_i h <;> rw [h] <;> rfl
  rw [hp, hp, sigmaHartree_rot hS hl, sigmaFock_rot hS hl, polarization_rot hl, screened_rot hS, wDyn_rot,
    sigmaDyn_rot hS hl, parts_rot]
  have hd := dyson_rot (S := S) hS hl mu (some (parts f (p.sigmaHartree g) (p.sigmaFock g)
    (p.sigmaDyn (p.wDyn (p.screened f.spinless (p.polarization g))) g)))
  rw [Option.map_some] at hd
  rw [hd]
  cases p.dyson mu (some (parts f (p.sigmaHartree g) (p.sigmaFock g)
    (p.sigmaDyn (p.wDyn (p.screened f.spinless (p.polarization g))) g))) <;> rfl

theorem close_neg (hpos : p.freqs ≠ [] ∧ p.lat ≠ []) [Nonempty o] {tol : ℝ} (ht : tol ≤ 0) (old : Option (G n o))
    (g : G n o) : ¬p.close tol old g := by
  intro h
  cases old with
  | none => exact h
  | some h' =>
    obtain ⟨w, hw⟩ := List.exists_mem_of_ne_nil _ hpos.1
    obtain ⟨k, hk⟩ := List.exists_mem_of_ne_nil _ hpos.2
    obtain ⟨a⟩ := ‹Nonempty o›
    have := h w hw k hk a a
    linarith [norm_nonneg (g w k a a - h' w k a a)]

/-- C104, partial: the whole loop of the solver with a fixed number of passes (tolerance zero).  Missing: with a positive
tolerance the number of passes depends on the basis, because the largest matrix element of the change does, and so does
the default search range for the chemical potential (`C104_bracket_violated`). -/
theorem C104_gw_partial [Nonempty o] (hS : Unitary S) (hl : LinearPieces p) (hpos : p.freqs ≠ [] ∧ p.lat ≠ []) (f : Flags)
    {tol : ℝ} (ht : tol ≤ 0) (maxiter : ℕ) (mu : ℝ) (g : G n o) (old : Option (G n o)) (last : Option (Sweep n o)) :
    (rotParams S p).loop f tol maxiter mu (rotW S g) (old.map (rotW S)) (last.map (rotSweep S))
      = (p.loop f tol maxiter mu g old last).map fun s => s.map (rotSweep S) := by
  induction maxiter generalizing mu g old last with
  | zero => rfl
  | succ m ih =>
    unfold SolverParams.loop
    rw [C104_gw_sweep hS hl]
    cases p.sweep f mu g with
    | error e => rfl
    | ok s =>
      have h1 : ¬p.close tol old s.g := close_neg hpos ht _ _
      have h2 : ¬(rotParams S p).close tol (old.map (rotW S)) (rotSweep S s).g :=
        close_neg (p := rotParams S p) hpos ht _ _
      simp only [Except.map]
      rw [if_neg h1, if_neg h2]
      exact ih s.mu s.g (some s.g) (some s)

/-- C104: a self consistent solution stays one in the rotated basis. -/
theorem C104_gw_fixed (hS : Unitary S) (hl : LinearPieces p) (f : Flags) (s : Sweep n o) (mu : ℝ)
    (h : p.sweep f mu s.g = .ok s) :
    (rotParams S p).sweep f mu (rotSweep S s).g = .ok (rotSweep S s) := by
  have := C104_gw_sweep hS hl f mu s.g
  rw [h] at this
  exact this

end Verif.Basis
