import Verif.Reversal.Props
import Verif.Mirror.Hf
import Verif.Units.Hf

/-!
# C131: reversal of motion in the mean-field solvers
-/

set_option linter.unusedSectionVars false

noncomputable section

namespace Verif.Reversal

open Matrix Verif.HartreeFock Verif.Lindhard
open Verif.Subsystem (Solution)

variable {m : ℕ} {κ V V' : Type*}

/-- the reversed problem, with its own diagonalisation and its own parametrisation of density matrices.  The interaction may be read
with its two pairs of operators exchanged, which holds for every tensor of `get_rpa_tensor` (C113). -/
structure RevHf (nk : κ ≃ κ) (p : Params m κ V) (p' : Params m κ V') : Prop where
  beta : p'.beta = p.beta
  muMin : p'.muMin = p.muMin
  muMax : p'.muMax = p.muMax
  ek : p'.ek = revE nk p.ek
  U : p'.U = rev4 p.U
  exch : ∀ a b c d, p.U a b c d = p.U c d a b
  eig : EigSpec p.eig
  eig' : EigSpec p'.eig
  eigv : EigSpec p.eigv
  eigv' : EigSpec p'.eigv
  brentq : p'.brentq = p.brentq

variable {nk : κ ≃ κ} {p : Params m κ V} {p' : Params m κ V'}

theorem meanField_rev {U : Operators.T4 m} (hU : ∀ a b c d, U a b c d = U c d a b) (rho : Matrix (Fin m) (Fin m) ℂ) :
    meanField (rev4 U) rhoᵀ = (meanField U rho)ᵀ := by
  ext b a
  change (∑ c, ∑ d, -U d c b a * rho d c) = ∑ c, ∑ d, -U b a c d * rho c d
  rw [Finset.sum_comm]
  exact Finset.sum_congr rfl fun c _ => Finset.sum_congr rfl fun d _ => by rw [hU]

theorem bands_rev {U : Operators.T4 m} (hU : ∀ a b c d, U a b c d = U c d a b) (nk : κ → κ)
    (ek : κ → Matrix (Fin m) (Fin m) ℂ) (rho : Matrix (Fin m) (Fin m) ℂ) (k : κ) :
    revE nk ek k + meanField (rev4 U) rhoᵀ = (ek (nk k) + meanField U rho)ᵀ := by
  rw [meanField_rev hU, Matrix.transpose_add, revE]

theorem matFun_rev {X : Matrix (Fin m) (Fin m) ℂ} {q q' : (Fin m → ℝ) × Matrix (Fin m) (Fin m) ℂ} (hq : Diag X q)
    (hq' : Diag Xᵀ q') (f : ℝ → ℂ) : matFun q' f = (matFun q f)ᵀ := by
  rw [matFun_unique hq' hq.transpose, matFun_transpose]

theorem band_sum_rev {X : Matrix (Fin m) (Fin m) ℂ} {q q' : (Fin m → ℝ) × Matrix (Fin m) (Fin m) ℂ} (hq : Diag X q)
    (hq' : Diag Xᵀ q') (f : ℝ → ℝ) : ∑ b, f (q'.1 b) = ∑ b, f (q.1 b) := by
  have h := congrArg Matrix.trace (matFun_rev hq hq' fun x => (f x : ℂ))
  have ht : ∀ {Y : Matrix (Fin m) (Fin m) ℂ} {r : (Fin m → ℝ) × Matrix (Fin m) (Fin m) ℂ}, Diag Y r →
      Matrix.trace (matFun r fun x => (f x : ℂ)) = ((∑ b, f (r.1 b) : ℝ) : ℂ) := by
    intro Y r hr
    rw [matFun, Matrix.mul_assoc, Matrix.trace_mul_comm, Matrix.mul_assoc, hr.1, Matrix.mul_one, Matrix.trace_diagonal]
    push_cast
    rfl
  rw [Matrix.trace_transpose, ht hq', ht hq] at h
  exact_mod_cast h

/-- the reversed matrix has the same levels -/
theorem level_rev {X : Matrix (Fin m) (Fin m) ℂ} {q q' : (Fin m → ℝ) × Matrix (Fin m) (Fin m) ℂ} (hq : Diag X q)
    (hq' : Diag Xᵀ q') (i : Fin m) : ∃ j, q'.1 j = q.1 i := by
  by_contra hne
  push Not at hne
  have h := band_sum_rev hq hq' fun x => if x = q.1 i then 1 else 0
  rw [Finset.sum_eq_zero fun j _ => if_neg (hne j)] at h
  have h1 : (1 : ℝ) ≤ ∑ b, if q.1 b = q.1 i then (1 : ℝ) else 0 := by
    have := Finset.single_le_sum (f := fun b => if q.1 b = q.1 i then (1 : ℝ) else 0)
      (fun b _ => by split_ifs <;> norm_num) (Finset.mem_univ i)
    simpa using this
  linarith

section Step

variable [Fintype κ] [Nonempty κ] [NeZero m]

theorem density_rev (rhok : κ → Matrix (Fin m) (Fin m) ℂ) : density (fun k => (rhok (nk k))ᵀ) = (density rhok)ᵀ := by
  ext a b
  change (∑ k, rhok (nk k) b a) / (Fintype.card κ : ℂ) = (∑ k, rhok k b a) / (Fintype.card κ : ℂ)
  rw [Equiv.sum_comp nk fun k => rhok k b a]

/-- two states of the solver, the second one the reversal of the first -/
structure RevState (nk : κ ≃ κ) (s s' : State m κ) : Prop where
  mu : s'.mu = s.mu
  M : s'.M = s.Mᵀ
  ekMF : s'.ekMF = fun k => (s.ekMF (nk k))ᵀ
  rhok : s'.rhok = fun k => (s.rhok (nk k))ᵀ
  rho : s'.rho = s.rhoᵀ
  ntot : s'.ntot = s.ntot

theorem target_rev (h : RevHf nk p p') {s s' : State m κ} (hE : s'.ekMF = fun k => (s.ekMF (nk k))ᵀ)
    (hh : ∀ k, (s.ekMF k).IsHermitian) (N : ℝ) : targetFunction p' s' N = targetFunction p s N := by
  funext mu
  unfold targetFunction
  rw [hE, h.beta, ← Equiv.sum_comp nk fun k => ∑ b, HartreeFock.fermi p.beta ((p.eigv (s.ekMF k)).1 b - mu)]
  congr 2
  refine Finset.sum_congr rfl fun k _ => ?_
  exact band_sum_rev (h.eigv _ (hh _)) (h.eigv' _ (hh _).transpose) fun x => HartreeFock.fermi p.beta (x - mu)

theorem eMin_rev (h : RevHf nk p p') {s s' : State m κ} (hE : s'.ekMF = fun k => (s.ekMF (nk k))ᵀ)
    (hh : ∀ k, (s.ekMF k).IsHermitian) : eMin p' s' = eMin p s := by
  unfold eMin
  rw [hE]
  apply le_antisymm
  · refine Finset.le_inf' _ _ fun x _ => ?_
    obtain ⟨j, hj⟩ := level_rev (h.eigv _ (hh x.1)) (h.eigv' _ (hh x.1).transpose) x.2
    rw [← hj]
    refine (Finset.inf'_le (fun x : κ × Fin m => (p'.eigv ((s.ekMF (nk x.1))ᵀ)).1 x.2)
      (Finset.mem_univ (nk.symm x.1, j))).trans ?_
    rw [Equiv.apply_symm_apply]
  · refine Finset.le_inf' _ _ fun x _ => ?_
    obtain ⟨j, hj⟩ := level_rev (h.eigv' _ (hh (nk x.1)).transpose) (q' := p.eigv (s.ekMF (nk x.1)))
      (by rw [Matrix.transpose_transpose]; exact h.eigv _ (hh _)) x.2
    rw [← hj]
    exact Finset.inf'_le (fun x : κ × Fin m => (p.eigv (s.ekMF x.1)).1 x.2) (Finset.mem_univ (nk x.1, j))

theorem eMax_rev (h : RevHf nk p p') {s s' : State m κ} (hE : s'.ekMF = fun k => (s.ekMF (nk k))ᵀ)
    (hh : ∀ k, (s.ekMF k).IsHermitian) : eMax p' s' = eMax p s := by
  unfold eMax
  rw [hE]
  apply le_antisymm
  · refine Finset.sup'_le _ _ fun x _ => ?_
    obtain ⟨j, hj⟩ := level_rev (h.eigv' _ (hh (nk x.1)).transpose) (q' := p.eigv (s.ekMF (nk x.1)))
      (by rw [Matrix.transpose_transpose]; exact h.eigv _ (hh _)) x.2
    rw [← hj]
    exact Finset.le_sup' (fun x : κ × Fin m => (p.eigv (s.ekMF x.1)).1 x.2) (Finset.mem_univ (nk x.1, j))
  · refine Finset.sup'_le _ _ fun x _ => ?_
    obtain ⟨j, hj⟩ := level_rev (h.eigv _ (hh x.1)) (h.eigv' _ (hh x.1).transpose) x.2
    rw [← hj]
    refine le_trans (le_of_eq ?_) (Finset.le_sup' (fun x : κ × Fin m => (p'.eigv ((s.ekMF (nk x.1))ᵀ)).1 x.2)
      (Finset.mem_univ (nk.symm x.1, j)))
    rw [Equiv.apply_symm_apply]

theorem updateMu_rev (h : RevHf nk p p') {s s' : State m κ} (hE : s'.ekMF = fun k => (s.ekMF (nk k))ᵀ)
    (hh : ∀ k, (s.ekMF k).IsHermitian) (N : ℝ) (x x' : Option ℝ) :
    Units.Both (fun t t' => t'.mu = t.mu ∧ t = { s with mu := t.mu } ∧ t' = { s' with mu := t'.mu }) (updateMu p s N x)
      (updateMu p' s' N x') := by
  rw [Basis.updateMu_eq, Basis.updateMu_eq, target_rev h hE hh, eMin_rev h hE hh, eMax_rev h hE hh, h.muMin, h.muMax, h.brentq]
  cases p.brentq (targetFunction p s N) (p.muMin.getD (eMin p s)) (p.muMax.getD (eMax p s)) with
  | error e => rfl
  | ok mu => exact ⟨rfl, rfl, rfl⟩

theorem updateDensity_rev (h : RevHf nk p p') {s s' : State m κ} (hmu : s'.mu = s.mu) (hM : s'.M = s.Mᵀ)
    (hE : s'.ekMF = fun k => (s.ekMF (nk k))ᵀ) (hh : ∀ k, (s.ekMF k).IsHermitian) :
    RevState nk (updateDensity p s) (updateDensity p' s') := by
  have h1 : (updateDensity p' s').rhok = fun k => ((updateDensity p s).rhok (nk k))ᵀ := by
    change momentumDensity p'.beta s'.mu (fun k => (p'.eig (s'.ekMF k)).1) (fun k => (p'.eig (s'.ekMF k)).2) = _
    funext k
    rw [Subsystem.momentumDensity_apply p'.beta s'.mu p'.eig s'.ekMF k]
    change _ = (momentumDensity p.beta s.mu (fun k => (p.eig (s.ekMF k)).1) (fun k => (p.eig (s.ekMF k)).2) (nk k))ᵀ
    rw [Subsystem.momentumDensity_apply p.beta s.mu p.eig s.ekMF (nk k), hmu, hE, h.beta]
    exact matFun_rev (h.eig _ (hh _)) (h.eig' _ (hh _).transpose) _
  have h2 : (updateDensity p' s').rho = (updateDensity p s).rhoᵀ := by
    change density (updateDensity p' s').rhok = _
    rw [h1]
    exact density_rev _
  refine ⟨hmu, hM, hE, h1, h2, ?_⟩
  change ∑ a, (updateDensity p' s').rho a a = ∑ a, (updateDensity p s).rho a a
  rw [h2]
  rfl

/-- C131: one step of the solver for the reversed problem, from the reversed density matrix, at fixed chemical potential or at fixed
number of particles: it stops with the same error or reaches the reversed state. -/
theorem C131_hf_step (h : RevHf nk p p') {s s' : State m κ} (hmu : s'.mu = s.mu) (v : V) (v' : V')
    (hv : p'.vec2mat v' = (p.vec2mat v)ᵀ) (hk : ∀ k, (p.ek k + meanField p.U (p.vec2mat v)).IsHermitian) (N : Option ℝ) :
    Units.Both (fun x x' => RevState nk x.1 x'.1 ∧ x'.2 = p'.mat2vec x.1.rhoᵀ) (densityStep p s v N) (densityStep p' s' v' N) := by
  unfold densityStep
  dsimp only
  set t := updateDispersion p (updateMeanField p s (p.vec2mat v)) with ht
  set t' := updateDispersion p' (updateMeanField p' s' (p'.vec2mat v')) with ht'
  have hM : t'.M = t.Mᵀ := by
    change meanField p'.U (p'.vec2mat v') = (meanField p.U (p.vec2mat v))ᵀ
    rw [h.U, hv, meanField_rev h.exch]
  have hE : t'.ekMF = fun k => (t.ekMF (nk k))ᵀ := by
    funext k
    change p'.ek k + meanField p'.U (p'.vec2mat v') = (p.ek (nk k) + meanField p.U (p.vec2mat v))ᵀ
    rw [h.U, hv, h.ek, bands_rev h.exch]
  have hh : ∀ k, (t.ekMF k).IsHermitian := hk
  have hmu' : t'.mu = t.mu := hmu
  cases N with
  | none =>
    have hd := updateDensity_rev h hmu' hM hE hh
    exact ⟨hd, by rw [hd.rho]⟩
  | some N =>
    have hu := updateMu_rev h hE hh N (some t.mu) (some t'.mu)
    dsimp only
    generalize updateMu p t N (some t.mu) = r at hu ⊢
    generalize updateMu p' t' N (some t'.mu) = r' at hu ⊢
    cases r with
    | error e =>
      cases r' with
      | error e' => exact hu
      | ok x => exact hu.elim
    | ok x =>
      cases r' with
      | error e' => exact hu.elim
      | ok x' =>
        obtain ⟨h1, h2, h3⟩ := hu
        have hd := updateDensity_rev h (s := x) (s' := x') h1 (by rw [h2, h3]; exact hM) (by rw [h2, h3]; exact hE)
          (by rw [h2]; exact hh)
        exact ⟨hd, by rw [hd.rho]⟩

theorem eInt_rev (U : Operators.T4 m) (rho : Matrix (Fin m) (Fin m) ℂ) : eInt (rev4 U) rhoᵀ = eInt U rho := by
  unfold eInt
  congr 1
  have h : ∀ f : Fin m → Fin m → Fin m → Fin m → ℂ, (∑ a, ∑ b, ∑ c, ∑ d, f a b c d) = ∑ a, ∑ b, ∑ c, ∑ d, f d c b a := by
    intro f
    have h1 : ∀ f : Fin m → Fin m → Fin m → Fin m → ℂ, (∑ a, ∑ b, ∑ c, ∑ d, f a b c d)
        = ∑ x : (Fin m × Fin m) × Fin m × Fin m, f x.1.1 x.1.2 x.2.1 x.2.2 := by
      intro f
      simp only [Fintype.sum_prod_type]
    rw [h1, h1]
    exact (Equiv.sum_comp ((Equiv.prodComm _ _).trans ((Equiv.prodComm _ _).prodCongr (Equiv.prodComm _ _)))
      fun x : (Fin m × Fin m) × Fin m × Fin m => f x.1.1 x.1.2 x.2.1 x.2.2).symm
  rw [h]
  refine Finset.sum_congr rfl fun a _ => Finset.sum_congr rfl fun b _ => Finset.sum_congr rfl fun c _ =>
    Finset.sum_congr rfl fun d _ => ?_
  simp only [rev4, Matrix.transpose_apply]
  ring

/-- C131: all energies and the grand potential are the same. -/
theorem C131_hf_energies (h : RevHf nk p p') {s s' : State m κ} (hs : RevState nk s s') (hh : ∀ k, (s.ekMF k).IsHermitian) :
    (updateTotalEnergy p' s').ekin = (updateTotalEnergy p s).ekin ∧ (updateTotalEnergy p' s').eint = (updateTotalEnergy p s).eint ∧
      (updateTotalEnergy p' s').etot = (updateTotalEnergy p s).etot ∧
      (updateTotalEnergy p' s').omega0 = (updateTotalEnergy p s).omega0 ∧
      (updateTotalEnergy p' s').omega = (updateTotalEnergy p s).omega := by
  have hr := (updateDensity_rev h hs.mu hs.M hs.ekMF hh).rhok
  have hkin : (updateTotalEnergy p' s').ekin = (updateTotalEnergy p s).ekin := by
    change eKin p'.ek (updateDensity p' s').rhok = eKin p.ek (updateDensity p s).rhok
    rw [hr, h.ek]
    unfold eKin
    congr 1
    rw [← Equiv.sum_comp nk fun k => ∑ a, ∑ b, p.ek k a b * (updateDensity p s).rhok k b a]
    refine Finset.sum_congr rfl fun k _ => ?_
    rw [Finset.sum_comm]
    rfl
  have hint : (updateTotalEnergy p' s').eint = (updateTotalEnergy p s).eint := by
    change eInt p'.U s'.rho = eInt p.U s.rho
    rw [h.U, hs.rho, eInt_rev]
  have h0 : (updateTotalEnergy p' s').omega0 = (updateTotalEnergy p s).omega0 := by
    change omega0 p'.beta s'.mu (fun k => (p'.eigv (s'.ekMF k)).1) = omega0 p.beta s.mu fun k => (p.eigv (s.ekMF k)).1
    unfold omega0
    rw [h.beta, hs.mu, hs.ekMF, ← Equiv.sum_comp nk fun k => ∑ b, Real.log (1 + Real.exp (-p.beta * ((p.eigv (s.ekMF k)).1 b - s.mu)))]
    congr 2
    refine Finset.sum_congr rfl fun k _ => ?_
    exact band_sum_rev (h.eigv _ (hh _)) (h.eigv' _ (hh _).transpose) fun x => Real.log (1 + Real.exp (-p.beta * (x - s.mu)))
  refine ⟨hkin, hint, ?_, h0, ?_⟩
  · change (updateTotalEnergy p' s').ekin + (updateTotalEnergy p' s').eint = _
    rw [hkin, hint]
    rfl
  · change (((updateTotalEnergy p' s').omega0 : ℝ) : ℂ) + (updateTotalEnergy p' s').eint = _
    rw [h0, hint]
    rfl

/-- C131: the density matrices that solve the mean-field equations. -/
theorem C131_hf_solutions {U : Operators.T4 m} (hU : ∀ a b c d, U a b c d = U c d a b) (beta mu : ℝ)
    (ek : κ → Matrix (Fin m) (Fin m) ℂ) (rho : Matrix (Fin m) (Fin m) ℂ) (hh : ∀ k, (ek k + meanField U rho).IsHermitian) :
    Solution (rev4 U) beta mu (revE nk ek) rhoᵀ ↔ Solution U beta mu ek rho := by
  obtain ⟨eig, hs⟩ := exists_eigSpec (o := Fin m)
  have key : thermalDensity beta (fun k => revE nk ek k + meanField (rev4 U) rhoᵀ) mu
      = (thermalDensity beta (fun k => ek k + meanField U rho) mu)ᵀ := by
    have e1 : ∀ (X : κ → Matrix (Fin m) (Fin m) ℂ) (u : ℝ), (∀ k, (X k).IsHermitian) → thermalDensity beta X u
        = density fun k => matFun (eig (X k)) fun y => (HartreeFock.fermi beta (y - u) : ℂ) := by
      intro X u hX
      ext a b
      change ((Fintype.card κ : ℂ)⁻¹ • ∑ k, HfResponse.fermiMatrix beta (X k - (u : ℂ) • 1)) a b = _
      rw [Matrix.smul_apply, Matrix.sum_apply, smul_eq_mul]
      change _ = (∑ k, _) / _
      rw [div_eq_inv_mul]
      congr 1
      refine Finset.sum_congr rfl fun k _ => ?_
      rw [fermiMatrix_shift beta u (hs _ (hX k))]
    have hb : (fun k => revE nk ek k + meanField (rev4 U) rhoᵀ) = fun k => (ek (nk k) + meanField U rho)ᵀ :=
      funext fun k => bands_rev hU nk ek rho k
    rw [hb, e1 _ _ fun k => (hh (nk k)).transpose, e1 _ _ hh,
      ← density_rev (nk := nk) fun k => matFun (eig (ek k + meanField U rho)) fun y => (HartreeFock.fermi beta (y - mu) : ℂ)]
    congr 1
    funext k
    exact matFun_rev (hs _ (hh (nk k))) (hs _ (hh (nk k)).transpose) _
  unfold Solution
  rw [key]
  exact ⟨fun h => Matrix.transpose_injective h, fun h => congrArg Matrix.transpose h⟩

/-- C131: no currents out of nothing. A model that is its own reversal, started from a density matrix that is its own reversal, keeps
this property in every step: the density matrix stays symmetric (real, as it is hermitian), the bands are those of the opposite
momentum. -/
theorem C131_hf_symmetric (h : RevHf nk p p) {s t : State m κ} {v w : V} {N : Option ℝ} (hv : p.vec2mat v = (p.vec2mat v)ᵀ)
    (hk : ∀ k, (p.ek k + meanField p.U (p.vec2mat v)).IsHermitian) (ht : densityStep p s v N = .ok (t, w)) :
    t.rho = t.rhoᵀ ∧ (∀ k, t.ekMF k = (t.ekMF (nk k))ᵀ) ∧ ∀ k, t.rhok k = (t.rhok (nk k))ᵀ := by
  have h1 := C131_hf_step h (s := s) (s' := s) rfl v v hv hk N
  rw [ht] at h1
  obtain ⟨h2, -⟩ := h1
  exact ⟨h2.rho, fun k => congrFun h2.ekMF k, fun k => congrFun h2.rhok k⟩

end Step

end Verif.Reversal
