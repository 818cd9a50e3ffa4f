import Verif.PointGroup.Lemmas
import Verif.Basis.Gw
import Verif.Gw.SolverProps

/-!
# C117: lattice symmetries in the GW solver

Each step of the solver is independent of the names of the momenta. With the independence of the basis (C104) a symmetry of
the dispersion, the interaction and the starting Green's function is a symmetry of everything the solver computes.
-/

noncomputable section

namespace Verif.PointGroup

open Complex Verif.Fourier Verif.Bubble Verif.Parallel Verif.Basis Verif.Gw

set_option linter.unusedSectionVars false

variable {d : ℕ} {n : Fin d → ℕ} [∀ i, NeZero (n i)] {o : Type} [Fintype o] [DecidableEq o]

/-- the same calculation with other names of the momenta -/
def relParams (P : PointOp n) (p : SolverParams n o) : SolverParams n o :=
  { p with
    e := fun k => p.e (P.k k)
    V := fun k => p.V (P.k k) }

/-- other names of the momenta in a Green's function or self energy -/
def relW {W E : Type*} (P : PointOp n) (g : W → Lat n → E) : W → Lat n → E := fun w k => g w (P.k k)

/-- results of one pass with other names of the momenta -/
def relSweep (P : PointOp n) (s : Sweep n o) : Sweep n o :=
  { g := relW P s.g
    mu := s.mu
    sigma := relW P s.sigma
    hartree := fun k => s.hartree (P.k k)
    fock := fun k => s.fock (P.k k)
    dyn := relW P s.dyn
    P := relW P s.P
    W := fun x => s.W (x.1, P.k x.2)
    wDyn := fun x => s.wDyn (x.1, P.k x.2) }

variable {P : PointOp n} {p : SolverParams n o}

theorem rhoK_rel (hg : GoodMeshes p) (g : G n o) : (relParams P p).rhoK (relW P g) = fun k => p.rhoK g (P.k k) := by
  unfold SolverParams.rhoK Gw.rhoK
  change distributedAssign p.ranks p.lat _ = _
  rw [hg.lat.assign hg.ranks, hg.lat.assign hg.ranks]
  rfl

theorem rhoR_rel (hg : GoodMeshes p) (g : G n o) : (relParams P p).rhoR (relW P g) = fun r => p.rhoR g (P.r r) := by
  unfold SolverParams.rhoR
  rw [rhoK_rel hg, kToR_comp]

theorem totalDensity_rel (rho : Lat n → o → o → ℂ) : totalDensity (fun r => rho (P.r r)) = totalDensity rho := by
  unfold totalDensity
  dsimp only
  rw [map_zero]

theorem hartreeR_rel (v : Lat n → T4 o) (rho : Lat n → o → o → ℂ) :
    hartreeR (fun k => v (P.k k)) (fun r => rho (P.r r)) = fun r => hartreeR v rho (P.r r) := by
  funext r
  unfold hartreeR
  by_cases h : r = 0
  · subst h
    simp
  · have h' : P.r r ≠ 0 := fun e => h (P.r.map_eq_zero_iff.1 e)
    rw [Function.update_of_ne h, Function.update_of_ne h']

theorem sigmaHartree_rel (hg : GoodMeshes p) (g : G n o) :
    (relParams P p).sigmaHartree (relW P g) = fun k => p.sigmaHartree g (P.k k) := by
  unfold SolverParams.sigmaHartree
  rw [rhoR_rel hg]
  change rToK (hartreeR (fun k => p.V (P.k k)) fun r => p.rhoR g (P.r r)) = _
  rw [hartreeR_rel, rToK_comp]

theorem sigmaFock_rel (hg : GoodMeshes p) (g : G n o) :
    (relParams P p).sigmaFock (relW P g) = fun k => p.sigmaFock g (P.k k) := by
  unfold SolverParams.sigmaFock
  rw [rhoR_rel hg]
  change rToK (fockR p.ranks p.lat (kToR fun k => p.V (P.k k)) fun r => p.rhoR g (P.r r)) = _
  rw [kToR_comp, ← rToK_comp]
  unfold fockR
  rw [hg.lat.assign hg.ranks, hg.lat.assign hg.ranks]

theorem gTr_rel (g : G n o) : (relParams P p).gTr (relW P g) = fun t r => p.gTr g t (P.r r) := by
  funext t r a b
  unfold SolverParams.gTr
  have h : ∀ w, kToR (relW P g w) r = kToR (g w) (P.r r) := fun w => congrFun (kToR_comp P (g w)) r
  simp only [h]
  rfl

theorem chi0tPoint_rel (L : ℕ) (g : ℕ → Lat n → o → o → ℂ) (r : Lat n) :
    chi0tPoint L (fun t r => g t (P.r r)) r = chi0tPoint L g (P.r r) := by
  funext t a b c e
  simp only [chi0tPoint, map_neg]

theorem chi0_rel (hg : GoodMeshes p) (g : G n o) (w : ℤ) : (relParams P p).chi0 (relW P g) w = fun k => p.chi0 g w (P.k k) := by
  unfold SolverParams.chi0
  rw [gTr_rel]
  by_cases h0 : p.nw = 1
  · have h0' : (relParams P p).nw = 1 := h0
    rw [if_pos h0, if_pos h0']
    by_cases h1 : w = 0
    · simp only [h1, if_true]
      rw [← rToK_comp]
      change rToK (chi0W0r p.ranks p.beta p.L p.lat _) = _
      unfold chi0W0r
      rw [hg.lat.assign hg.ranks, hg.lat.assign hg.ranks]
      simp only [chi0tPoint_rel]
    · simp only [h1, if_false]
      rfl
  · have h0' : ¬(relParams P p).nw = 1 := h0
    rw [if_neg h0, if_neg h0', ← rToK_comp]
    change rToK (fun r a b c d => p.boseFreq (fun t => chi0tr p.ranks p.L p.lat _ r t a b c d) w) = _
    unfold chi0tr
    rw [hg.lat.assign hg.ranks, hg.lat.assign hg.ranks]
    simp only [chi0tPoint_rel]

theorem polarization_rel (hg : GoodMeshes p) (g : G n o) :
    (relParams P p).polarization (relW P g) = relW P (p.polarization g) := by
  funext w k
  unfold SolverParams.polarization
  rw [chi0_rel hg]
  rfl

theorem screened_rel (hg : GoodMeshes p) (spinless : Bool) (X : ℤ → Lat n → T4 o) :
    (relParams P p).screened spinless (relW P X) = fun x => p.screened spinless X (x.1, P.k x.2) := by
  funext x
  exact (assign_comp P hg.ranks hg.bfreqs hg.lat (fun x => Rpa.screenedOptPoint
    (if spinless then (2 : ℂ) • X x.1 x.2 else X x.1 x.2) (p.V x.2)) x.1 x.2).symm

theorem susceptibility_rel (hg : GoodMeshes p) (X : ℤ → Lat n → T4 o) (W : ℤ × Lat n → T4 o) :
    (relParams P p).susceptibility (relW P X) (fun x => W (x.1, P.k x.2)) = fun x => p.susceptibility X W (x.1, P.k x.2) := by
  funext x
  exact (assign_comp P hg.ranks hg.bfreqs hg.lat (fun x => Rpa.screenedGeneralizedPoint (W x)
    ((Rpa.Bare.dynamic X).at x.1 x.2)) x.1 x.2).symm

theorem wDyn_rel (W : ℤ × Lat n → T4 o) :
    (relParams P p).wDyn (fun x => W (x.1, P.k x.2)) = fun x => p.wDyn W (x.1, P.k x.2) := by
  unfold SolverParams.wDyn
  simp only [relParams]
  generalize p.bfreqs = l
  induction l generalizing W with
  | nil => rfl
  | cons w l ih =>
    simp only [List.foldl_cons]
    rw [← ih]

theorem sigmaDyn_rel (hg : GoodMeshes p) (W : ℤ × Lat n → T4 o) (g : G n o) :
    (relParams P p).sigmaDyn (fun x => W (x.1, P.k x.2)) (relW P g) = relW P (p.sigmaDyn W g) := by
  have hW : ∀ w r, kToR (fun k => W (w, P.k k)) r = kToR (fun k => W (w, k)) (P.r r) := fun w r =>
    congrFun (kToR_comp P fun k => W (w, k)) r
  have hs : ∀ t r, distributedAssign p.ranks ((List.range (p.L + 1)).product p.lat) (fun x : ℕ × Lat n =>
      gwPoint (fun a b c d => p.pieces.wToTau (fun w => kToR (fun k => W (w, k)) (P.r x.2) a b c d) x.1) (p.gTr g x.1 (P.r x.2))) (t, r)
      = distributedAssign p.ranks ((List.range (p.L + 1)).product p.lat) (fun x : ℕ × Lat n =>
      gwPoint (fun a b c d => p.pieces.wToTau (fun w => kToR (fun k => W (w, k)) x.2 a b c d) x.1) (p.gTr g x.1 x.2)) (t, P.r r) :=
    fun t r => (assign_comp (P.swap) hg.ranks (List.nodup_range (n := p.L + 1)) hg.lat (fun x : ℕ × Lat n =>
      gwPoint (fun a b c d => p.pieces.wToTau (fun w => kToR (fun k => W (w, k)) x.2 a b c d) x.1) (p.gTr g x.1 x.2)) t r).symm
  unfold SolverParams.sigmaDyn
  rw [gTr_rel]
  simp only [relParams, hW, hs]
  generalize distributedAssign p.ranks ((List.range (p.L + 1)).product p.lat) (fun x : ℕ × Lat n =>
      gwPoint (fun a b c d => p.pieces.wToTau (fun w => kToR (fun k => W (w, k)) x.2 a b c d) x.1) (p.gTr g x.1 x.2)) = s
  funext w k a b
  exact congrFun (congrFun (congrFun (rToK_comp P fun r (a b : o) => p.pieces.toFreq (fun t => s (t, r) a b) w) k) a) b

theorem dispatch_rel (hg : GoodMeshes p) (mu : ℝ) (s : Option (ℤ → Lat n → o → o → ℂ)) :
    (relParams P p).dispatch mu (s.map (relW P)) = relW P (p.dispatch mu s) := by
  cases s with
  | none =>
    funext w k
    exact (assign_comp P hg.ranks hg.freqs hg.lat
      (fun x : ℤ × Lat n => ((p.val x.1 + (mu : ℂ)) • (1 : Matrix o o ℂ) - p.e x.2)⁻¹) w k).symm
  | some s =>
    funext w k
    exact (assign_comp P hg.ranks hg.freqs hg.lat
      (fun x : ℤ × Lat n => ((p.val x.1 + 0 + (mu : ℂ)) • (1 : Matrix o o ℂ) - p.e x.2 - Matrix.of (s x.1 x.2))⁻¹) w k).symm

theorem target_rel (hg : GoodMeshes p) (s : Option (ℤ → Lat n → o → o → ℂ)) :
    (relParams P p).target (s.map (relW P)) = p.target s := by
  funext mu
  unfold SolverParams.target
  rw [dispatch_rel hg, rhoR_rel hg, totalDensity_rel]
  rfl

theorem dyson_rel (hg : GoodMeshes p) (mu : ℝ) (s : Option (ℤ → Lat n → o → o → ℂ)) :
    (relParams P p).dyson mu (s.map (relW P)) = (p.dyson mu s).map fun x => (relW P x.1, x.2) := by
  unfold SolverParams.dyson
  rw [target_rel hg]
  have hb : (relParams P p).brentq = p.brentq := rfl
  have hc : (relParams P p).bracket = p.bracket := rfl
  have hn : (relParams P p).nFix = p.nFix := rfl
  rw [hb, hc, hn]
  simp only [dispatch_rel hg]
  split_ifs
  · rfl
  · cases p.brentq (p.target s) p.bracket.1 p.bracket.2 <;> rfl

theorem parts_rel (f : Flags) (sH sF : Lat n → o → o → ℂ) (sD : ℤ → Lat n → o → o → ℂ) :
    parts f (fun k => sH (P.k k)) (fun k => sF (P.k k)) (relW P sD) = relW P (parts f sH sF sD) := by
  obtain ⟨a, b, c, e⟩ := f
  cases a <;> cases b <;> cases c <;> rfl

/-- C117: one pass of the solver does not depend on the names of the momenta. -/
theorem C117_gw_sweep (hg : GoodMeshes p) (f : Flags) (mu : ℝ) (g : G n o) :
    (relParams P p).sweep f mu (relW P g) = (p.sweep f mu g).map (relSweep P) := by
  have hp : ∀ (q : SolverParams n o) (g : G n o), q.sweep f mu g = (q.dyson mu (some (parts f (q.sigmaHartree g)
      (q.sigmaFock g) (q.sigmaDyn (q.wDyn (q.screened f.spinless (q.polarization g))) g)))).map fun x =>
      ⟨x.1, x.2, parts f (q.sigmaHartree g)
          (q.sigmaFock g) (q.sigmaDyn (q.wDyn (q.screened f.spinless (q.polarization g))) g), q.sigmaHartree g,
          q.sigmaFock g, q.sigmaDyn (q.wDyn (q.screened f.spinless (q.polarization g))) g, q.polarization g,
          q.screened f.spinless (q.polarization g), q.wDyn (q.screened f.spinless (q.polarization g))⟩ := by
    intro q g
    unfold SolverParams.sweep parts
    dsimp only
    split <;> rename_i h <;> rw [h] <;> rfl
  rw [hp, hp, sigmaHartree_rel hg, sigmaFock_rel hg, polarization_rel hg, screened_rel hg, wDyn_rel,
    sigmaDyn_rel hg, parts_rel]
  have hd := dyson_rel (P := P) hg mu (some (parts f (p.sigmaHartree g) (p.sigmaFock g)
    (p.sigmaDyn (p.wDyn (p.screened f.spinless (p.polarization g))) g)))
  rw [Option.map_some] at hd
  rw [hd]
  cases p.dyson mu (some (parts f (p.sigmaHartree g) (p.sigmaFock g)
    (p.sigmaDyn (p.wDyn (p.screened f.spinless (p.polarization g))) g))) <;> rfl

/-! ## Symmetric calculations -/

variable {S : Matrix o o ℂ}

/-- what one pass produced is symmetric -/
structure SymSweep (P : PointOp n) (S : Matrix o o ℂ) (s : Sweep n o) : Prop where
  g : ∀ w, SymG P S (s.g w)
  sigma : ∀ w, SymG P S (s.sigma w)
  hartree : SymG P S s.hartree
  fock : SymG P S s.fock
  dyn : ∀ w, SymG P S (s.dyn w)
  pol : ∀ w, SymChi P S (s.P w)
  W : ∀ w, SymV P S fun q => s.W (w, q)
  wDyn : ∀ w, SymV P S fun q => s.wDyn (w, q)

/-- dispersion and interaction are symmetric -/
structure SymParams (P : PointOp n) (S : Matrix o o ℂ) (p : SolverParams n o) : Prop where
  e : SymG P S p.e
  V : SymV P S p.V

theorem SymParams.eq (h : SymParams P S p) : relParams P p = rotParams S p := by
  unfold relParams rotParams
  rw [show (fun k => p.e (P.k k)) = fun k => rotG S (p.e k) from funext h.e,
    show (fun k => p.V (P.k k)) = fun k => rotV S (p.V k) from funext h.V]

/-- C117: one pass of the solver keeps the symmetry. -/
theorem C117_gw_pass (hg : GoodMeshes p) (hS : Unitary S) (hl : LinearPieces p) (hp : SymParams P S p) (f : Flags) (mu : ℝ)
    {g : G n o} (h0 : ∀ w, SymG P S (g w)) {s : Sweep n o} (hs : p.sweep f mu g = .ok s) : SymSweep P S s := by
  have h1 := C117_gw_sweep (P := P) hg f mu g
  rw [hp.eq, show relW P g = rotW S g from funext fun w => funext fun k => h0 w k, C104_gw_sweep hS hl, hs] at h1
  have h2 : rotSweep S s = relSweep P s := Except.ok.inj h1
  have e1 : rotW S s.g = relW P s.g := congrArg Sweep.g h2
  have e2 : rotW S s.sigma = relW P s.sigma := congrArg Sweep.sigma h2
  have e3 : (fun k => rotG S (s.hartree k)) = fun k => s.hartree (P.k k) := congrArg Sweep.hartree h2
  have e4 : (fun k => rotG S (s.fock k)) = fun k => s.fock (P.k k) := congrArg Sweep.fock h2
  have e5 : rotW S s.dyn = relW P s.dyn := congrArg Sweep.dyn h2
  have e6 : (fun w k => rotChi S (s.P w k)) = relW P s.P := congrArg Sweep.P h2
  have e7 : (fun x => rotV S (s.W x)) = fun x => s.W (x.1, P.k x.2) := congrArg Sweep.W h2
  have e8 : (fun x => rotV S (s.wDyn x)) = fun x => s.wDyn (x.1, P.k x.2) := congrArg Sweep.wDyn h2
  exact ⟨fun w k => (congrFun (congrFun e1 w) k).symm, fun w k => (congrFun (congrFun e2 w) k).symm,
    fun k => (congrFun e3 k).symm, fun k => (congrFun e4 k).symm, fun w k => (congrFun (congrFun e5 w) k).symm,
    fun w k => (congrFun (congrFun e6 w) k).symm, fun w k => (congrFun e7 (w, k)).symm, fun w k => (congrFun e8 (w, k)).symm⟩

theorem loop_sym (hg : GoodMeshes p) (hS : Unitary S) (hl : LinearPieces p) (hp : SymParams P S p) (f : Flags) (tol : ℝ) (fuel : ℕ) :
    ∀ (mu : ℝ) (g : G n o) (old : Option (G n o)) (last : Option (Sweep n o)), (∀ w, SymG P S (g w)) →
      (∀ s ∈ last, SymSweep P S s) → ∀ res, p.loop f tol fuel mu g old last = .ok res → ∀ s ∈ res, SymSweep P S s := by
  induction fuel with
  | zero =>
    intro mu g old last _ hlast res h
    rw [← Except.ok.inj (show Except.ok last = Except.ok res from h)]
    exact hlast
  | succ m ih =>
    intro mu g old last h0 _ res h
    unfold SolverParams.loop at h
    cases hs : p.sweep f mu g with
    | error e => rw [hs] at h; simp at h
    | ok s =>
      have h1 := C117_gw_pass hg hS hl hp f mu h0 hs
      rw [hs] at h
      dsimp only at h
      by_cases hc : p.close tol old s.g
      · rw [if_pos hc] at h
        rw [← Except.ok.inj h]
        intro t ht
        rw [← Option.some.inj (show some s = some t from ht)]
        exact h1
      · rw [if_neg hc] at h
        refine ih s.mu s.g _ _ h1.g (fun t ht => ?_) res h
        rw [← Option.some.inj (show some s = some t from ht)]
        exact h1

/-- all attributes of the solver object are symmetric -/
structure SymState (P : PointOp n) (S : Matrix o o ℂ) (s : SolverState n o) : Prop where
  g : ∀ w, SymG P S (s.g w)
  sigma : ∀ w, SymG P S (s.sigma w)
  rhoK : ∀ r ∈ s.rhoK, ∀ k, r (P.k k) = rotRho S (r k)
  rhoR : ∀ r ∈ s.rhoR, ∀ x, r (P.r x) = rotRho S (r x)
  hartree : ∀ x ∈ s.sigmaHartree, SymG P S x
  fock : ∀ x ∈ s.sigmaFock, SymG P S x
  dyn : ∀ x ∈ s.sigmaDyn, ∀ w, SymG P S (x w)
  pol : ∀ x ∈ s.P, ∀ w, SymChi P S (x w)
  W : ∀ x ∈ s.W, ∀ w, SymV P S fun q => x (w, q)
  wDyn : ∀ x ∈ s.wDyn, ∀ w, SymV P S fun q => x (w, q)
  chi : ∀ x ∈ s.chi, ∀ w, SymChi P S fun q => x (w, q)

theorem rhoK_sym (hg : GoodMeshes p) (hl : LinearPieces p) (hp : SymParams P S p) {g : G n o} (h0 : ∀ w, SymG P S (g w))
    (k : Lat n) : p.rhoK g (P.k k) = rotRho S (p.rhoK g k) := by
  have h := congrFun (rhoK_rel (P := P) hg g) k
  rw [hp.eq, show relW P g = rotW S g from funext fun w => funext fun k => h0 w k, rhoK_rot hl] at h
  exact h.symm

theorem rhoR_sym (hg : GoodMeshes p) (hl : LinearPieces p) (hp : SymParams P S p) {g : G n o} (h0 : ∀ w, SymG P S (g w))
    (r : Lat n) : p.rhoR g (P.r r) = rotRho S (p.rhoR g r) := by
  have h := congrFun (rhoR_rel (P := P) hg g) r
  rw [hp.eq, show relW P g = rotW S g from funext fun w => funext fun k => h0 w k, rhoR_rot hl] at h
  exact h.symm

theorem generalized_rot (hS : Unitary S) (W X : T4 o) :
    Rpa.screenedGeneralizedPoint (rotV S W) (rotChi S X) = rotChi S (Rpa.screenedGeneralizedPoint W X) := by
  apply Rpa.pairMat_injective
  rw [pairMat_rotChi, Rpa.screenedGeneralizedPoint, Rpa.pairMat_matTensor, Rpa.screenedGeneralizedPoint, Rpa.pairMat_matTensor,
    pairMat_rotV, pairMat_rotChi]
  set K := kr (cj S) S with hK
  set J := kr S (cj S) with hJ
  have h1 : J.transpose * K = 1 := pair_cancel2 hS
  have h2 : K.transpose * J = 1 := pair_cancel1 hS
  calc K * Rpa.pairMat X * K.transpose * (J * Rpa.pairMat W * J.transpose) * (K * Rpa.pairMat X * K.transpose)
        + K * Rpa.pairMat X * K.transpose
      = K * Rpa.pairMat X * (K.transpose * J) * Rpa.pairMat W * (J.transpose * K) * Rpa.pairMat X * K.transpose
        + K * Rpa.pairMat X * K.transpose := by simp only [Matrix.mul_assoc]
    _ = _ := by rw [h1, h2, Matrix.mul_one, Matrix.mul_one, mul_add, add_mul]; simp only [Matrix.mul_assoc]

theorem susceptibility_sym (hg : GoodMeshes p) (hS : Unitary S) {X : ℤ → Lat n → T4 o} {W : ℤ × Lat n → T4 o}
    (hX : ∀ w, SymChi P S (X w)) (hW : ∀ w, SymV P S fun q => W (w, q)) (w : ℤ) :
    SymChi P S fun q => p.susceptibility X W (w, q) := by
  intro q
  refine (assign_comp P hg.ranks hg.bfreqs hg.lat _ w q).trans (Eq.trans ?_
    (distributedAssign_map (rot4L (cj S) S (cj S) S).toAddMonoidHom p.ranks (Dyson.prodMesh p.bfreqs p.lat) _ (w, q)))
  congr 1
  funext x
  have e1 : W (x.1, P.k x.2) = rotV S (W x) := hW x.1 x.2
  have e2 : (Rpa.Bare.dynamic X).at x.1 (P.k x.2) = rotChi S (X x.1 x.2) := hX x.1 x.2
  dsimp only
  rw [e1, e2, generalized_rot hS]
  rfl

/-- C117: if dispersion, interaction and the state of the solver have the symmetry, then so has the state after
`solve_iter`, for every setting of the switches, every tolerance and every number of passes. -/
theorem C117_gw (hg : GoodMeshes p) (hS : Unitary S) (hl : LinearPieces p) (hp : SymParams P S p) (f : Flags) (tol : ℝ)
    (maxiter : ℕ) {s t : SolverState n o} (h0 : SymState P S s) (h : p.solveIter f tol maxiter s = .ok t) : SymState P S t := by
  unfold SolverParams.solveIter at h
  cases hloop : p.loop f tol maxiter s.mu s.g none none with
  | error e => rw [hloop] at h; simp at h
  | ok last =>
    have hsym := loop_sym hg hS hl hp f tol maxiter s.mu s.g none none h0.g (by simp) last hloop
    rw [hloop] at h
    dsimp only at h
    cases last with
    | none =>
      simp only [SolverParams.finish] at h
      by_cases hgw : f.gw = true
      · rw [if_pos hgw] at h; simp at h
      · rw [if_neg hgw] at h
        rw [← Except.ok.inj h]
        refine { h0 with sigma := ?_, rhoK := ?_, rhoR := ?_ }
        · intro w k
          exact (map_zero (rot2L S (cj S))).symm
        · rintro r ⟨⟩
          exact rhoK_sym hg hl hp h0.g
        · rintro r ⟨⟩
          exact rhoR_sym hg hl hp h0.g
    | some u =>
      have hu := hsym u rfl
      simp only [SolverParams.finish] at h
      rw [← Except.ok.inj h]
      refine ⟨hu.g, hu.sigma, ?_, ?_, ?_, ?_, ?_, ?_, ?_, ?_, ?_⟩
      · rintro r ⟨⟩
        exact rhoK_sym hg hl hp hu.g
      · rintro r ⟨⟩
        exact rhoR_sym hg hl hp hu.g
      all_goals
        intro x hx
        dsimp only at hx
        split_ifs at hx
      · cases hx; exact hu.hartree
      · exact h0.hartree x hx
      · cases hx; exact hu.fock
      · exact h0.fock x hx
      · cases hx; exact hu.dyn
      · exact h0.dyn x hx
      · cases hx; exact hu.pol
      · exact h0.pol x hx
      · cases hx; exact hu.W
      · exact h0.W x hx
      · cases hx; exact hu.wDyn
      · exact h0.wDyn x hx
      · cases hx; exact susceptibility_sym hg hS hu.pol hu.W
      · exact h0.chi x hx

/-- C117: a solver built from symmetric input (default starting point) is symmetric. -/
theorem C117_gw_init (hg : GoodMeshes p) (hS : Unitary S) (hl : LinearPieces p) (hp : SymParams P S p) (mu : Option ℝ)
    {g : Option (G n o)} (h0 : ∀ x ∈ g, ∀ w, SymG P S (x w)) {s : SolverState n o} (h : p.init mu g = .ok s) : SymState P S s := by
  have hz : ∀ w, SymG P S ((0 : ℤ → Lat n → o → o → ℂ) w) := fun w k => (map_zero (rot2L S (cj S))).symm
  unfold SolverParams.init at h
  have h1 := dyson_rel (P := P) hg (mu.getD 0) none
  have h2 := dyson_rot hS hl (mu.getD 0) none
  rw [hp.eq] at h1
  simp only [Option.map_none] at h1 h2
  rw [h1] at h2
  dsimp only at h
  cases hd : p.dyson (mu.getD 0) none with
  | error e => rw [hd] at h; simp at h
  | ok x =>
    rw [hd] at h h2
    have h3 : relW P x.1 = rotW S x.1 := congrArg Prod.fst (Except.ok.inj h2)
    cases g with
    | none =>
      rw [← Except.ok.inj h]
      exact ⟨fun w k => congrFun (congrFun h3 w) k, hz, by simp, by simp, by simp, by simp, by simp, by simp, by simp, by simp, by simp⟩
    | some g1 =>
      rw [← Except.ok.inj h]
      exact ⟨h0 g1 rfl, hz, by simp, by simp, by simp, by simp, by simp, by simp, by simp, by simp, by simp⟩

end Verif.PointGroup
