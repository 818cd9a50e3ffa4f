import Verif.Fourier.Lemmas
import Verif.Basis.Response
import Verif.Basis.Interactions
import Verif.Gw.Props
import Verif.Dyson.Props

/-!
# C117: symmetries of the lattice (specification, transforms, bubbles, RPA)

A symmetry operation maps the momentum mesh to itself, `k ↦ φ k`, the lattice vectors `r ↦ ψ r` so that phases `k · r` are
kept, and the orbitals with a unitary matrix `S`. A dispersion is symmetric if `e(φ k) = S e(k) S†`.
-/

noncomputable section

namespace Verif.PointGroup

open Complex Verif.Fourier Verif.Bubble Verif.Parallel Verif.Basis Verif.Gw

set_option linter.unusedSectionVars false

variable {d : ℕ} {n : Fin d → ℕ} [∀ i, NeZero (n i)] {o : Type*} [Fintype o] [DecidableEq o]

/-- action of a symmetry operation on momenta and on lattice vectors; both keep sums, and phases are kept -/
structure PointOp {d : ℕ} (n : Fin d → ℕ) [∀ i, NeZero (n i)] where
  /-- on momenta -/
  k : Lat n ≃+ Lat n
  /-- on lattice vectors -/
  r : Lat n ≃+ Lat n
  /-- `exp(i φ(k) · ψ(r)) = exp(i k · r)` -/
  phase : ∀ x y, exp (2 * Real.pi * I * ∑ i, ((k x i).val * (r y i).val : ℂ) / n i)
    = exp (2 * Real.pi * I * ∑ i, ((x i).val * (y i).val : ℂ) / n i)

theorem PointOp.ker (P : PointOp n) (x y : Lat n) : Fourier.ker (P.k x) (P.r y) = Fourier.ker x y := by
  rw [← exp_eq_ker, ← exp_eq_ker, P.phase]

/-! ## Examples of operations -/

/-- inversion -/
def inversion : PointOp n where
  k := AddEquiv.neg _
  r := AddEquiv.neg _
  phase := fun x y => by
    rw [exp_eq_ker, exp_eq_ker]
    exact ker_neg_neg x y

/-- reflection of one axis -/
def reflection (j : Fin d) : PointOp n where
  k := AddEquiv.piCongrRight fun i => if i = j then AddEquiv.neg _ else AddEquiv.refl _
  r := AddEquiv.piCongrRight fun i => if i = j then AddEquiv.neg _ else AddEquiv.refl _
  phase := fun x y => by
    rw [exp_eq_ker, exp_eq_ker]
    unfold Fourier.ker
    refine Finset.prod_congr rfl fun i _ => ?_
    simp only [AddEquiv.piCongrRight_apply]
    by_cases h : i = j
    · simp [h]
    · simp [h]

/-- permutation of the axes of a lattice with the same number of points along all of them -/
def permutation {N : ℕ} [NeZero N] (s : Equiv.Perm (Fin d)) : PointOp (fun _ : Fin d => N) where
  k := { toFun := fun x i => x (s i), invFun := fun x i => x (s.symm i), left_inv := fun x => funext fun i => congrArg x (s.apply_symm_apply i),
         right_inv := fun x => funext fun i => congrArg x (s.symm_apply_apply i), map_add' := fun x y => rfl }
  r := { toFun := fun x i => x (s i), invFun := fun x i => x (s.symm i), left_inv := fun x => funext fun i => congrArg x (s.apply_symm_apply i),
         right_inv := fun x => funext fun i => congrArg x (s.symm_apply_apply i), map_add' := fun x y => rfl }
  phase := fun x y => by
    congr 2
    exact Equiv.sum_comp s fun i => ((x i).val * (y i).val : ℂ) / N

/-- momenta and lattice vectors exchanged -/
def PointOp.swap (P : PointOp n) : PointOp n where
  k := P.r
  r := P.k
  phase := fun x y => by
    have h := P.phase y x
    simp only [mul_comm ((P.k y _).val : ℂ), mul_comm ((y _).val : ℂ)] at h
    exact h

/-- one operation after another -/
def PointOp.comp (P Q : PointOp n) : PointOp n where
  k := Q.k.trans P.k
  r := Q.r.trans P.r
  phase := fun x y => (P.phase (Q.k x) (Q.r y)).trans (Q.phase x y)

/-- rotation of a square lattice by a quarter turn: exchange of the axes and reflection of one -/
example {N : ℕ} [NeZero N] : PointOp (fun _ : Fin 2 => N) := (reflection 0).comp (permutation (Equiv.swap 0 1))

/-! ## Transforms -/

variable {E : Type*} [AddCommGroup E] [Module ℂ E]

theorem kToR_comp (P : PointOp n) (g : Lat n → E) : kToR (fun k => g (P.k k)) = fun r => kToR g (P.r r) := by
  funext r
  unfold kToR
  rw [fftw_neg_one, fftw_neg_one]
  congr 1
  rw [← Equiv.sum_comp P.k.toEquiv fun k => Fourier.ker (-k) (P.r r) • g k]
  refine Finset.sum_congr rfl fun k _ => ?_
  change _ = Fourier.ker (-P.k k) (P.r r) • g (P.k k)
  rw [← map_neg P.k, P.ker]

theorem rToK_comp (P : PointOp n) (h : Lat n → E) : rToK (fun r => h (P.r r)) = fun k => rToK h (P.k k) := by
  funext k
  unfold rToK
  rw [fftw_one, fftw_one]
  rw [← Equiv.sum_comp P.r.toEquiv fun r => Fourier.ker r (P.k k) • h r]
  refine Finset.sum_congr rfl fun r _ => ?_
  change _ = Fourier.ker (P.r r) (P.k k) • h (P.r r)
  rw [ker_comm (P.r r), P.ker, ker_comm]

/-! ## Symmetric functions -/

/-- a dispersion, Green's function or self energy at one frequency is symmetric -/
def SymG (P : PointOp n) (S : Matrix o o ℂ) (g : Lat n → o → o → ℂ) : Prop := ∀ k, g (P.k k) = rotG S (g k)

/-- the same in real space -/
def SymGr (P : PointOp n) (S : Matrix o o ℂ) (g : Lat n → o → o → ℂ) : Prop := ∀ r, g (P.r r) = rotG S (g r)

/-- a susceptibility is symmetric -/
def SymChi (P : PointOp n) (S : Matrix o o ℂ) (c : Lat n → T4 o) : Prop := ∀ q, c (P.k q) = rotChi S (c q)

/-- a momentum dependent interaction is symmetric -/
def SymV (P : PointOp n) (S : Matrix o o ℂ) (v : Lat n → T4 o) : Prop := ∀ q, v (P.k q) = rotV S (v q)

variable {P : PointOp n} {S : Matrix o o ℂ}

/-- C117: the Green's function in real space has the symmetry exactly if the one in momentum space has it. -/
theorem C117_fourier (g : Lat n → o → o → ℂ) : SymG P S g ↔ SymGr P S (kToR g) := by
  constructor
  · intro h r
    have h1 := congrFun (kToR_comp P g) r
    rw [← h1, show (fun k => g (P.k k)) = fun k => rot2L S (cj S) (g k) from funext h, kToR_map]
    rfl
  · intro h k
    have h1 := congrFun (rToK_comp P (kToR g)) k
    rw [rToK_kToR] at h1
    rw [← h1, show (fun r => kToR g (P.r r)) = fun r => rot2L S (cj S) (kToR g r) from funext h, rToK_map, rToK_kToR]
    rfl

/-- a loop over a complete lattice mesh does not depend on the names of the momenta -/
theorem assign_comp {W E : Type*} [DecidableEq W] [AddCommMonoid E] (P : PointOp n) {ranks : ℕ} (hr : 0 < ranks) {wmesh : List W}
    (hw : wmesh.Nodup) {lat : List (Lat n)} (hc : Complete lat) (f : W × Lat n → E) (w : W) (k : Lat n) :
    distributedAssign ranks (Dyson.prodMesh wmesh lat) f (w, P.k k)
      = distributedAssign ranks (Dyson.prodMesh wmesh lat) (fun x => f (x.1, P.k x.2)) (w, k) := by
  have hnd := Dyson.prodMesh_nodup hw hc.1
  rw [C02_distributedAssign ranks hr _ hnd, C02_distributedAssign ranks hr _ hnd]
  simp only [Dyson.mem_prodMesh, hc.2, and_true]

/-! ## Dyson equation -/

/-- C117: the lattice Green's function of a symmetric dispersion is symmetric. -/
theorem C117_dyson_free {W : Type*} [DecidableEq W] (hS : Unitary S) {ranks : ℕ} (hr : 0 < ranks) (mu : ℂ) (val : W → ℂ)
    {wmesh : List W} (hw : wmesh.Nodup) {lat : List (Lat n)} (hc : Complete lat) {e : Lat n → Matrix o o ℂ} (he : SymG P S e) (w : W) :
    SymG P S fun k => Dyson.latticeDysonG0Xk ranks mu val wmesh lat e (w, k) := by
  intro k
  refine (assign_comp P hr hw hc _ w k).trans (Eq.trans ?_ (C104_dyson_free hS ranks mu val wmesh lat e (w, k)))
  rw [← show (fun k => e (P.k k)) = fun k => rotG S (e k) from funext he]
  rfl

/-- C117: the same with a symmetric self energy. -/
theorem C117_dyson {W : Type*} [DecidableEq W] (hS : Unitary S) {ranks : ℕ} (hr : 0 < ranks) (mu : ℂ) (val : W → ℂ)
    {wmesh : List W} (hw : wmesh.Nodup) {lat : List (Lat n)} (hc : Complete lat) {e : Lat n → Matrix o o ℂ} (he : SymG P S e)
    {s : W → Lat n → Matrix o o ℂ} (hs : ∀ w, SymG P S (s w)) (idelta : ℂ) (w : W) :
    SymG P S fun k => Dyson.latticeDysonGXk ranks mu val wmesh lat e (.lattice s) idelta (w, k) := by
  intro k
  refine (assign_comp P hr hw hc _ w k).trans
    (Eq.trans ?_ (C104_dyson hS ranks mu val wmesh lat e (.lattice s) idelta (w, k)))
  rw [← show (fun k => e (P.k k)) = fun k => rotG S (e k) from funext he,
    ← show Dyson.Sigma.lattice (fun w k => s w (P.k k)) = rotSigma S (.lattice s) from
      congrArg Dyson.Sigma.lattice (funext fun w => funext fun k => hs w k)]
  rfl

/-! ## Bubbles -/

/-- relabelling of the momenta commutes with the bubble; a constant shift of all momenta drops out -/
theorem bubble_comp (P : PointOp n) (c : Lat n) (beta : ℂ) (g : G n o) (w : ℤ) (q : Lat n) (nu : ℤ) :
    chi0nFromGwk beta (fun w k => g w (P.k k + c)) w q nu = chi0nFromGwk beta g w (P.k q) nu := by
  funext a b c' d'
  unfold chi0nFromGwk
  congr 1
  rw [← Equiv.sum_comp (P.k.toEquiv.trans (Equiv.addRight c)) fun k => -(g nu k d' a * g (nu + w) (k - P.k q) b c')]
  refine Finset.sum_congr rfl fun k _ => ?_
  change _ = -(g nu (P.k k + c) d' a * g (nu + w) (P.k k + c - P.k q) b c')
  dsimp only
  rw [map_sub, show P.k k - P.k q + c = P.k k + c - P.k q by abel]

/-- C117: the bubble of a symmetric Green's function is symmetric. -/
theorem C117_bubble (beta : ℂ) {g : G n o} (hg : ∀ w, SymG P S (g w)) (w nu : ℤ) :
    SymChi P S fun q => chi0nFromGwk beta g w q nu := by
  intro q
  have h := bubble_comp P 0 beta g w q nu
  simp only [add_zero] at h
  dsimp only
  rw [← h, ← C104_bubble_direct, show (fun w k => g w (P.k k)) = fun w k => rotG S (g w k) from
    funext fun w => funext fun k => hg w k]

/-- C117: shifting all momenta by the same vector (a constant vector potential, or another origin of the momentum mesh) does
not change the bubble. -/
theorem C117_bubble_shift (beta : ℂ) (g : G n o) (c : Lat n) (w : ℤ) (q : Lat n) (nu : ℤ) :
    chi0nFromGwk beta (fun w k => g w (k + c)) w q nu = chi0nFromGwk beta g w q nu := by
  funext a b c' d'
  unfold chi0nFromGwk
  congr 1
  rw [← Equiv.sum_comp (Equiv.addRight c) fun k => -(g nu k d' a * g (nu + w) (k - q) b c')]
  refine Finset.sum_congr rfl fun k _ => ?_
  simp only [Equiv.coe_addRight]
  rw [show k - q + c = k + c - q by abel]

/-- C117: the imaginary time bubble of a symmetric Green's function, in real space -/
theorem C117_bubble_time {ranks : ℕ} (hr : 0 < ranks) (L : ℕ) {rmesh : List (Lat n)} (hc : Complete rmesh)
    {g : ℕ → Lat n → o → o → ℂ} (hg : ∀ t, SymGr P S (g t)) (t : ℕ) (r : Lat n) :
    chi0tr ranks L rmesh g (P.r r) t = rotChi S (chi0tr ranks L rmesh g r t) := by
  rw [← C104_bubble_time]
  unfold chi0tr
  rw [hc.assign hr, hc.assign hr]
  funext a b c f
  simp only [chi0tPoint]
  rw [← map_neg P.r, show g t (P.r r) = rotG S (g t r) from hg t r, show g (L - t) (P.r (-r)) = rotG S (g (L - t) (-r)) from
    hg (L - t) (-r)]

/-! ## Lindhard bubble -/

/-- C117: the Lindhard bubble of a symmetric dispersion is symmetric. Its indices follow the rule of interactions (C104), which
is the rule of susceptibilities if `S` is real. -/
theorem C117_lindhard_partial (hS : Unitary S) {ranks : ℕ} (hr : 0 < ranks) {eig : Lindhard.Eig o} (hE : Lindhard.EigSpec eig)
    (tol beta mu : ℝ) {lat : List (Lat n)} (hc : Complete lat) {e : Lat n → Matrix o o ℂ} (hh : ∀ k, (e k).IsHermitian)
    (he : SymG P S e) (z : ℂ) : SymV P S fun q => Lindhard.lindhard ranks eig tol beta mu lat e z q := by
  intro q
  have h := C104_lindhard_partial hS ranks hr hE tol beta mu lat hc.1 hc.2 e hh z q
  dsimp only
  rw [← h, Lindhard.lindhard_eq ranks hr _ _ _ _ _ hc.1 hc.2, Lindhard.lindhard_eq ranks hr _ _ _ _ _ hc.1 hc.2]
  congr 1
  rw [← Equiv.sum_comp P.k.toEquiv fun k => Lindhard.dbl (Lindhard.sys eig mu e k) (Lindhard.sys eig mu e (k + P.k q)) _]
  refine Finset.sum_congr rfl fun k _ => ?_
  change Lindhard.dbl (Lindhard.sys eig mu e (P.k k)) (Lindhard.sys eig mu e (P.k k + P.k q)) _ = _
  rw [← map_add]
  have e1 : ∀ k, Lindhard.sys eig mu e (P.k k) = Lindhard.sys eig mu (fun k => rotG S (e k)) k := by
    intro k
    unfold Lindhard.sys
    rw [show e (P.k k) = rotG S (e k) from he k]
  rw [e1, e1]

/-- C117: shifting all momenta by the same vector does not change the Lindhard bubble. -/
theorem C117_lindhard_shift {ranks : ℕ} (hr : 0 < ranks) (eig : Lindhard.Eig o) (tol beta mu : ℝ) {lat : List (Lat n)}
    (hc : Complete lat) (e : Lat n → Matrix o o ℂ) (c : Lat n) (z : ℂ) (q : Lat n) :
    Lindhard.lindhard ranks eig tol beta mu lat (fun k => e (k + c)) z q = Lindhard.lindhard ranks eig tol beta mu lat e z q := by
  rw [Lindhard.lindhard_eq ranks hr _ _ _ _ _ hc.1 hc.2, Lindhard.lindhard_eq ranks hr _ _ _ _ _ hc.1 hc.2]
  congr 1
  rw [← Equiv.sum_comp (Equiv.addRight c) fun k => Lindhard.dbl (Lindhard.sys eig mu e k) (Lindhard.sys eig mu e (k + q)) _]
  refine Finset.sum_congr rfl fun k _ => ?_
  simp only [Equiv.coe_addRight, Lindhard.sys]
  rw [show k + q + c = k + c + q by abel]

/-! ## RPA and screened interaction -/

variable {Om : Type*} [DecidableEq Om]

/-- C117: the RPA susceptibility of a symmetric bubble and an interaction invariant under the orbital part is symmetric. -/
theorem C117_rpa (hS : Unitary S) {ranks : ℕ} (hr : 0 < ranks) {wmesh : List Om} (hw : wmesh.Nodup) {lat : List (Lat n)}
    (hc : Complete lat) {chi0 : Om × Lat n → T4 o} (h0 : ∀ w, SymChi P S fun q => chi0 (w, q)) {U : T4 o} (hU : rotV S U = U) (w : Om) :
    SymChi P S fun q => Rpa.solveRpaPH ranks (Dyson.prodMesh wmesh lat) chi0 U (w, q) := by
  intro q
  refine (assign_comp P hr hw hc _ w q).trans
    (Eq.trans ?_ (C104_rpa_partial hS ranks (Dyson.prodMesh wmesh lat) chi0 U (w, q)))
  rw [hU, ← show (fun x : Om × Lat n => chi0 (x.1, P.k x.2)) = fun x => rotChi S (chi0 x) from funext fun x => h0 x.1 x.2]
  rfl

/-- C117: the screened interaction of a symmetric polarisation and a symmetric bare interaction is symmetric. -/
theorem C117_screened (hS : Unitary S) {ranks : ℕ} (hr : 0 < ranks) {wmesh : List Om} (hw : wmesh.Nodup) {lat : List (Lat n)}
    (hc : Complete lat) {Pi : Om × Lat n → T4 o} (h0 : ∀ w, SymChi P S fun q => Pi (w, q)) {V : Lat n → T4 o} (hV : SymV P S V)
    {res : Om × Lat n → T4 o} (h : Rpa.screenedBubble ranks (Dyson.prodMesh wmesh lat) lat lat Pi (.static V) = .ok res) (w : Om) :
    SymV P S fun q => res (w, q) := by
  intro q
  have h1 := (C104_screened hS ranks (Dyson.prodMesh wmesh lat) lat lat Pi (.static V)).1
  rw [h] at h1
  rw [← show (fun x : Om × Lat n => Pi (x.1, P.k x.2)) = fun x => rotChi S (Pi x) from funext fun x => h0 x.1 x.2,
    ← show Rpa.Bare.static (fun k => V (P.k k)) = rotBare S (.static V) from congrArg Rpa.Bare.static (funext hV)] at h1
  unfold Rpa.screenedBubble at h h1
  rw [if_neg (by simp)] at h h1
  have e2 := congrFun (Except.ok.inj h1) (w, q)
  refine Eq.trans ?_ e2
  rw [← Except.ok.inj h]
  exact assign_comp P hr hw hc _ w q

end Verif.PointGroup
