import Verif.Mirror.Props
import Verif.Subsystem.Hf

/-!
# C129: particles and holes in the mean-field solvers
-/

set_option linter.unusedSectionVars false

noncomputable section

namespace Verif.Mirror

open Matrix Verif.HartreeFock Verif.Lindhard
open Verif.Subsystem (Solution)

variable {m : ℕ} {κ V V' : Type*}

/-- the density matrix of the holes -/
def holeRho (rho : Matrix (Fin m) (Fin m) ℂ) : Matrix (Fin m) (Fin m) ℂ := 1 - rhoᵀ

/-- The dispersion of the holes: a full band makes the mean field `M(1)`, so that `nk` is `k → -k` and `ε → -(ε + M(1))ᵀ`. -/
def holeBand (U : Operators.T4 m) (nk : κ → κ) (ek : κ → Matrix (Fin m) (Fin m) ℂ) : κ → Matrix (Fin m) (Fin m) ℂ := fun k =>
  -(ek (nk k) + meanField U 1)ᵀ

/-- the same problem written for holes, with its own external routines -/
structure HoleHf (nk : κ ≃ κ) (p : Params m κ V) (p' : Params m κ V') : Prop where
  beta : p'.beta = p.beta
  ek : p'.ek = holeBand p.U nk p.ek
  U : p'.U = hole4 p.U
  eig : EigSpec p.eig
  eig' : EigSpec p'.eig
  eigv : EigSpec p.eigv
  eigv' : EigSpec p'.eigv

variable {nk : κ ≃ κ} {p : Params m κ V} {p' : Params m κ V'}

theorem meanField_hole (U : Operators.T4 m) (rho : Matrix (Fin m) (Fin m) ℂ) :
    meanField (hole4 U) (holeRho rho) = (meanField U 1)ᵀ - (meanField U rho)ᵀ := by
  ext b a
  rw [Matrix.sub_apply, Matrix.transpose_apply, Matrix.transpose_apply]
  change (∑ c, ∑ d, -U b a d c * (1 - rhoᵀ) c d) = (∑ c, ∑ d, -U b a c d * (1 : Matrix (Fin m) (Fin m) ℂ) c d)
    - ∑ c, ∑ d, -U b a c d * rho c d
  rw [Finset.sum_comm, ← Finset.sum_sub_distrib]
  refine Finset.sum_congr rfl fun c _ => ?_
  rw [← Finset.sum_sub_distrib]
  refine Finset.sum_congr rfl fun d _ => ?_
  rw [Matrix.sub_apply, Matrix.transpose_apply, mul_sub, Matrix.one_apply, Matrix.one_apply]
  congr 2
  exact if_congr eq_comm rfl rfl

theorem bands_hole (U : Operators.T4 m) (nk : κ → κ) (ek : κ → Matrix (Fin m) (Fin m) ℂ) (rho : Matrix (Fin m) (Fin m) ℂ) (k : κ) :
    holeBand U nk ek k + meanField (hole4 U) (holeRho rho) = -(ek (nk k) + meanField U rho)ᵀ := by
  rw [meanField_hole, holeBand, Matrix.transpose_add, Matrix.transpose_add]
  abel

theorem fermiHf_neg (beta x : ℝ) : HartreeFock.fermi beta (-x) = 1 - HartreeFock.fermi beta x := by
  unfold HartreeFock.fermi
  rw [mul_neg, Real.exp_neg]
  have := Real.exp_pos (beta * x)
  field_simp
  ring

/-- the occupation of the holes -/
theorem matFun_hole {X : Matrix (Fin m) (Fin m) ℂ} {p q : (Fin m → ℝ) × Matrix (Fin m) (Fin m) ℂ} (hp : Diag X p) (hq : Diag (-Xᵀ) q)
    (beta mu : ℝ) : matFun q (fun y => (HartreeFock.fermi beta (y - -mu) : ℂ))
      = holeRho (matFun p fun y => (HartreeFock.fermi beta (y - mu) : ℂ)) := by
  rw [matFun_unique hq (diag_neg_transpose hp)]
  have h1 : matFun (fun i => -p.1 i, p.2.map (starRingEnd ℂ)) (fun y => (HartreeFock.fermi beta (y - -mu) : ℂ))
      = matFun (p.1, p.2.map (starRingEnd ℂ)) fun y => 1 - (HartreeFock.fermi beta (y - mu) : ℂ) := by
    unfold matFun
    dsimp only
    congr 3
    funext i
    rw [show -p.1 i - -mu = -(p.1 i - mu) by ring, fermiHf_neg]
    push_cast
    rfl
  rw [h1, matFun_transpose, holeRho]
  have h2 : matFun p (fun y => 1 - (HartreeFock.fermi beta (y - mu) : ℂ))
      = 1 - matFun p fun y => (HartreeFock.fermi beta (y - mu) : ℂ) := by
    rw [← matFun_one hp]
    unfold matFun
    rw [← Matrix.sub_mul, ← Matrix.mul_sub, Matrix.diagonal_sub]
  rw [h2, Matrix.transpose_sub, Matrix.transpose_one]

section Step

variable [Fintype κ] [Nonempty κ] [NeZero m]

theorem density_hole (rhok : κ → Matrix (Fin m) (Fin m) ℂ) :
    density (fun k => holeRho (rhok (nk k))) = holeRho (density rhok) := by
  have hK : (Fintype.card κ : ℂ) ≠ 0 := by exact_mod_cast Fintype.card_ne_zero
  ext a b
  change (∑ k, ((1 : Matrix (Fin m) (Fin m) ℂ) a b - rhok (nk k) b a)) / (Fintype.card κ : ℂ)
    = (1 : Matrix (Fin m) (Fin m) ℂ) a b - (∑ k, rhok k b a) / (Fintype.card κ : ℂ)
  rw [Finset.sum_sub_distrib, Equiv.sum_comp nk fun k => rhok k b a, Finset.sum_const, Finset.card_univ, nsmul_eq_mul, sub_div,
    mul_div_cancel_left₀ _ hK]

theorem trace_holeRho (rho : Matrix (Fin m) (Fin m) ℂ) : ∑ a, holeRho rho a a = m - ∑ a, rho a a := by
  have h : ∀ a, holeRho rho a a = 1 - rho a a := fun a => by
    rw [holeRho, Matrix.sub_apply, Matrix.one_apply_eq, Matrix.transpose_apply]
  simp only [h]
  rw [Finset.sum_sub_distrib, Finset.sum_const, Finset.card_univ, Fintype.card_fin, nsmul_eq_mul, mul_one]

/-- C129: one step of the solver for the holes, at the negative chemical potential and from the density matrix of the holes. -/
theorem C129_hf_step (h : HoleHf nk p p') {s s1 : State m κ} {v w : V} {N : Option ℝ}
    (hstep : densityStep p s v N = .ok (s1, w)) (hk : ∀ k, (p.ek k + meanField p.U (p.vec2mat v)).IsHermitian)
    (s' : State m κ) (hmu : s'.mu = -s1.mu) (v' : V') (hv : p'.vec2mat v' = holeRho (p.vec2mat v)) :
    ∃ s1', densityStep p' s' v' none = .ok (s1', p'.mat2vec (holeRho s1.rho)) ∧ s1'.mu = -s1.mu ∧
      s1'.ekMF = (fun k => -(s1.ekMF (nk k))ᵀ) ∧ s1'.rhok = (fun k => holeRho (s1.rhok (nk k))) ∧ s1'.rho = holeRho s1.rho ∧
      s1'.ntot = m - s1.ntot := by
  have hfields : s1.M = meanField p.U (p.vec2mat v) ∧ s1.ekMF = meanFieldDispersion p.ek s1.M ∧
      s1.rhok = momentumDensity p.beta s1.mu (fun k => (p.eig (s1.ekMF k)).1) (fun k => (p.eig (s1.ekMF k)).2) ∧
      s1.rho = density s1.rhok ∧ s1.ntot = ∑ a, s1.rho a a := by
    unfold densityStep at hstep
    cases N with
    | none =>
      dsimp only at hstep
      have := (Prod.mk.inj (Except.ok.inj hstep)).1
      rw [← this]
      exact ⟨rfl, rfl, rfl, rfl, rfl⟩
    | some N =>
      dsimp only [updateMu] at hstep
      generalize hb : p.brentq _ _ _ = r at hstep
      cases r with
      | error e => cases hstep
      | ok mu =>
        dsimp only at hstep
        have := (Prod.mk.inj (Except.ok.inj hstep)).1
        rw [← this]
        exact ⟨rfl, rfl, rfl, rfl, rfl⟩
  obtain ⟨hM, hE, hR, hD, hN⟩ := hfields
  have hEh : ∀ k, (s1.ekMF k).IsHermitian := fun k => by rw [hE, hM]; exact hk k
  have hEh' : ∀ k, (-(s1.ekMF (nk k))ᵀ).IsHermitian := fun k => (hEh (nk k)).transpose.neg
  have eE : meanFieldDispersion p'.ek (meanField p'.U (p'.vec2mat v')) = fun k => -(s1.ekMF (nk k))ᵀ := by
    funext k
    rw [h.U, hv, h.ek, hE, hM]
    exact bands_hole p.U nk p.ek (p.vec2mat v) k
  have eR : momentumDensity p'.beta (-s1.mu) (fun k => (p'.eig (-(s1.ekMF (nk k))ᵀ)).1) (fun k => (p'.eig (-(s1.ekMF (nk k))ᵀ)).2)
      = fun k => holeRho (s1.rhok (nk k)) := by
    funext k
    rw [Subsystem.momentumDensity_apply p'.beta (-s1.mu) p'.eig (fun k => -(s1.ekMF (nk k))ᵀ) k, hR,
      Subsystem.momentumDensity_apply p.beta s1.mu p.eig s1.ekMF (nk k), h.beta]
    exact matFun_hole (h.eig _ (hEh (nk k))) (h.eig' _ (hEh' k)) p.beta s1.mu
  set t := updateDensity p' (updateDispersion p' (updateMeanField p' s' (p'.vec2mat v'))) with ht
  have hval : densityStep p' s' v' none = .ok (t, p'.mat2vec t.rho) := rfl
  have f2 : t.ekMF = fun k => -(s1.ekMF (nk k))ᵀ := eE
  have f3 : t.rhok = fun k => holeRho (s1.rhok (nk k)) := by
    change momentumDensity p'.beta s'.mu (fun k => (p'.eig (meanFieldDispersion p'.ek (meanField p'.U (p'.vec2mat v')) k)).1)
      (fun k => (p'.eig (meanFieldDispersion p'.ek (meanField p'.U (p'.vec2mat v')) k)).2) = _
    rw [eE, hmu, eR]
  have f4 : t.rho = holeRho s1.rho := by
    change density t.rhok = _
    rw [f3, density_hole, hD]
  have f5 : t.ntot = m - s1.ntot := by
    change ∑ a, t.rho a a = _
    rw [f4, trace_holeRho, hN]
  exact ⟨t, by rw [hval, f4], hmu, f2, f3, f4, f5⟩

/-- C129: the density matrices that solve the mean-field equations. -/
theorem C129_hf_solutions (U : Operators.T4 m) (beta mu : ℝ) (ek : κ → Matrix (Fin m) (Fin m) ℂ)
    (rho : Matrix (Fin m) (Fin m) ℂ) (hh : ∀ k, (ek k + meanField U rho).IsHermitian) :
    Solution (hole4 U) beta (-mu) (holeBand U nk ek) (holeRho rho) ↔ Solution U beta mu ek rho := by
  obtain ⟨eig, hs⟩ := exists_eigSpec (o := Fin m)
  have key : thermalDensity beta (fun k => holeBand U nk ek k + meanField (hole4 U) (holeRho rho)) (-mu)
      = holeRho (thermalDensity beta (fun k => ek k + meanField U rho) mu) := by
    have e1 : ∀ (X : κ → Matrix (Fin m) (Fin m) ℂ) (u : ℝ), (∀ k, (X k).IsHermitian) → thermalDensity beta X u
        = density fun k => matFun (eig (X k)) fun y => (HartreeFock.fermi beta (y - u) : ℂ) := by
      intro X u hX
      ext a b
      change ((Fintype.card κ : ℂ)⁻¹ • ∑ k, HfResponse.fermiMatrix beta (X k - (u : ℂ) • 1)) a b = _
      rw [Matrix.smul_apply, Matrix.sum_apply, smul_eq_mul]
      change _ = (∑ k, _) / _
      rw [div_eq_inv_mul]
      congr 1
      refine Finset.sum_congr rfl fun k _ => ?_
      rw [fermiMatrix_shift beta u (hs _ (hX k))]
    have hb : (fun k => holeBand U nk ek k + meanField (hole4 U) (holeRho rho)) = fun k => -(ek (nk k) + meanField U rho)ᵀ :=
      funext fun k => bands_hole U nk ek rho k
    rw [hb, e1 _ _ fun k => (hh (nk k)).transpose.neg, e1 _ _ hh,
      ← density_hole (nk := nk) fun k => matFun (eig (ek k + meanField U rho)) fun y => (HartreeFock.fermi beta (y - mu) : ℂ)]
    congr 1
    funext k
    exact matFun_hole (hs _ (hh (nk k))) (hs _ (hh (nk k)).transpose.neg) beta mu
  have hinv : ∀ x y : Matrix (Fin m) (Fin m) ℂ, holeRho x = holeRho y ↔ x = y := by
    intro x y
    unfold holeRho
    rw [sub_right_inj]
    exact ⟨fun h => Matrix.transpose_injective h, fun h => by rw [h]⟩
  unfold Solution
  rw [key, hinv]

/-- C129: a model that is its own transform and whose density matrix obeys `ρ = 1 - ρᵀ` is half filled, and the step keeps this
property: the solver stays at half filling for ever, without a search for the chemical potential. -/
theorem C129_hf_half (h : HoleHf nk p p) {s s1 : State m κ} {v w : V} (hmu : s.mu = 0)
    (hstep : densityStep p s v none = .ok (s1, w)) (hk : ∀ k, (p.ek k + meanField p.U (p.vec2mat v)).IsHermitian)
    (hv : p.vec2mat v = holeRho (p.vec2mat v)) : s1.rho = holeRho s1.rho ∧ s1.ntot = m / 2 := by
  have hm1 : s1.mu = s.mu := by
    have := (Prod.mk.inj (Except.ok.inj hstep)).1
    rw [← this]
    rfl
  obtain ⟨s2, h1, -, -, -, h5, h6⟩ := C129_hf_step h hstep hk s (by rw [hm1, hmu, neg_zero]) v hv
  rw [hstep] at h1
  have h2 := (Prod.mk.inj (Except.ok.inj h1)).1
  subst h2
  refine ⟨h5, ?_⟩
  linear_combination h6 / 2

/-! ## Grand potential -/

theorem eInt_hole (U : Operators.T4 m) (hU : ∀ a b c d, U a b c d = U c d a b) (rho : Matrix (Fin m) (Fin m) ℂ) :
    eInt (hole4 U) (holeRho rho) = eInt U rho + eInt U 1 - ∑ a, ∑ c, ∑ d, U a a c d * rho c d := by
  have h1 : eInt (hole4 U) (holeRho rho) = eInt U (1 - rho) := by
    unfold eInt
    congr 1
    rw [Finset.sum_comm]
    refine Finset.sum_congr rfl fun a _ => Finset.sum_congr rfl fun b _ => ?_
    rw [Finset.sum_comm]
    refine Finset.sum_congr rfl fun c _ => Finset.sum_congr rfl fun d _ => ?_
    have h2 : ∀ x y, holeRho rho y x = (1 - rho) x y := by
      intro x y
      rw [holeRho, Matrix.sub_apply, Matrix.sub_apply, Matrix.transpose_apply, Matrix.one_apply, Matrix.one_apply]
      congr 1
      exact if_congr eq_comm rfl rfl
    rw [h2, h2]
    rfl
  have h3 : (∑ a, ∑ b, ∑ c, ∑ d, rho a b * U a b c d * (1 : Matrix (Fin m) (Fin m) ℂ) c d)
      = ∑ a, ∑ c, ∑ d, U a a c d * rho c d := by
    have : ∀ a b c, (∑ d, rho a b * U a b c d * (1 : Matrix (Fin m) (Fin m) ℂ) c d) = U c c a b * rho a b := by
      intro a b c
      rw [Finset.sum_eq_single c (fun d _ hd => by rw [Matrix.one_apply_ne (Ne.symm hd), mul_zero]) (by simp), Matrix.one_apply_eq,
        hU a b c c]
      ring
    simp only [this]
    rw [show (∑ a, ∑ b, ∑ c, U c c a b * rho a b) = ∑ a, ∑ c, ∑ b, U c c a b * rho a b from
      Finset.sum_congr rfl fun a _ => Finset.sum_comm]
    exact Finset.sum_comm
  have h4 : (∑ a, ∑ b, ∑ c, ∑ d, (1 : Matrix (Fin m) (Fin m) ℂ) a b * U a b c d * rho c d) = ∑ a, ∑ c, ∑ d, U a a c d * rho c d := by
    refine Finset.sum_congr rfl fun a _ => ?_
    rw [Finset.sum_eq_single a (fun b _ hb => by simp [Matrix.one_apply_ne (Ne.symm hb)]) (by simp)]
    simp only [Matrix.one_apply_eq, one_mul]
  rw [h1]
  unfold eInt
  have h5 : (∑ a, ∑ b, ∑ c, ∑ d, (1 - rho) a b * U a b c d * (1 - rho) c d)
      = (∑ a, ∑ b, ∑ c, ∑ d, (1 : Matrix (Fin m) (Fin m) ℂ) a b * U a b c d * (1 : Matrix (Fin m) (Fin m) ℂ) c d)
        - (∑ a, ∑ b, ∑ c, ∑ d, rho a b * U a b c d * (1 : Matrix (Fin m) (Fin m) ℂ) c d)
        - (∑ a, ∑ b, ∑ c, ∑ d, (1 : Matrix (Fin m) (Fin m) ℂ) a b * U a b c d * rho c d)
        + ∑ a, ∑ b, ∑ c, ∑ d, rho a b * U a b c d * rho c d := by
    simp only [← Finset.sum_sub_distrib, ← Finset.sum_add_distrib, Matrix.sub_apply]
    refine Finset.sum_congr rfl fun a _ => Finset.sum_congr rfl fun b _ => Finset.sum_congr rfl fun c _ =>
      Finset.sum_congr rfl fun d _ => ?_
    ring
  rw [h5, h3, h4]
  ring

theorem sum_eig {X : Matrix (Fin m) (Fin m) ℂ} {q : (Fin m → ℝ) × Matrix (Fin m) (Fin m) ℂ} (hq : Diag X q) :
    ((∑ b, q.1 b : ℝ) : ℂ) = ∑ a, X a a := by
  have h := congrArg Matrix.trace hq.2.2
  rw [Matrix.mul_assoc, Matrix.trace_mul_comm, Matrix.mul_assoc, hq.1, Matrix.mul_one, Matrix.trace_diagonal] at h
  push_cast
  exact h.symm

theorem band_sum_hole {X : Matrix (Fin m) (Fin m) ℂ} {q q' : (Fin m → ℝ) × Matrix (Fin m) (Fin m) ℂ} (hq : Diag X q)
    (hq' : Diag (-Xᵀ) q') (f : ℝ → ℝ) : ∑ b, f (q'.1 b) = ∑ b, f (-q.1 b) := by
  have h := congrArg Matrix.trace (matFun_unique hq' (diag_neg_transpose hq) fun x => (f x : ℂ))
  have ht : ∀ {Y : Matrix (Fin m) (Fin m) ℂ} {r : (Fin m → ℝ) × Matrix (Fin m) (Fin m) ℂ}, Diag Y r →
      Matrix.trace (matFun r fun x => (f x : ℂ)) = ((∑ b, f (r.1 b) : ℝ) : ℂ) := by
    intro Y r hr
    rw [matFun, Matrix.mul_assoc, Matrix.trace_mul_comm, Matrix.mul_assoc, hr.1, Matrix.mul_one, Matrix.trace_diagonal]
    push_cast
    rfl
  rw [ht hq', ht (diag_neg_transpose hq)] at h
  exact_mod_cast h

theorem omega0_hole (h : HoleHf nk p p') (hb : p.beta ≠ 0) (mu : ℝ) {X : κ → Matrix (Fin m) (Fin m) ℂ}
    (hX : ∀ k, (X k).IsHermitian) :
    ((omega0 p'.beta (-mu) fun k => (p'.eigv (-(X (nk k))ᵀ)).1 : ℝ) : ℂ)
      = (omega0 p.beta mu fun k => (p.eigv (X k)).1 : ℝ) - (∑ k, ∑ a, X k a a) / (Fintype.card κ : ℂ) + m * mu := by
  have hK : (Fintype.card κ : ℝ) ≠ 0 := by exact_mod_cast Fintype.card_ne_zero
  have hKc : (Fintype.card κ : ℂ) ≠ 0 := by exact_mod_cast Fintype.card_ne_zero
  have h1 : (∑ k, ∑ b, Real.log (1 + Real.exp (-p.beta * ((p'.eigv (-(X (nk k))ᵀ)).1 b - -mu))))
      = ∑ k, ∑ b, (p.beta * ((p.eigv (X k)).1 b - mu) + Real.log (1 + Real.exp (-p.beta * ((p.eigv (X k)).1 b - mu)))) := by
    rw [← Equiv.sum_comp nk fun k => ∑ b, (p.beta * ((p.eigv (X k)).1 b - mu)
      + Real.log (1 + Real.exp (-p.beta * ((p.eigv (X k)).1 b - mu))))]
    refine Finset.sum_congr rfl fun k _ => ?_
    rw [band_sum_hole (h.eigv _ (hX (nk k))) (h.eigv' _ (hX (nk k)).transpose.neg)
      fun x => Real.log (1 + Real.exp (-p.beta * (x - -mu)))]
    refine Finset.sum_congr rfl fun b _ => ?_
    set x := (p.eigv (X (nk k))).1 b
    have e : 1 + Real.exp (-p.beta * (-x - -mu)) = Real.exp (p.beta * (x - mu)) * (1 + Real.exp (-p.beta * (x - mu))) := by
      rw [mul_add, mul_one, ← Real.exp_add, add_comm]
      congr 1
      · congr 1; ring
      · rw [show p.beta * (x - mu) + -p.beta * (x - mu) = 0 by ring, Real.exp_zero]
    rw [e, Real.log_mul (Real.exp_ne_zero _) (by positivity), Real.log_exp]
  have h2 : (∑ k, ∑ b, (p.beta * ((p.eigv (X k)).1 b - mu) + Real.log (1 + Real.exp (-p.beta * ((p.eigv (X k)).1 b - mu)))))
      = p.beta * ((∑ k, ∑ b, (p.eigv (X k)).1 b) - Fintype.card κ * (m * mu))
        + ∑ k, ∑ b, Real.log (1 + Real.exp (-p.beta * ((p.eigv (X k)).1 b - mu))) := by
    simp only [Finset.sum_add_distrib, ← Finset.mul_sum, Finset.sum_sub_distrib, Finset.sum_const, Finset.card_univ,
      Fintype.card_fin, nsmul_eq_mul]
    ring
  have h3 : (∑ k, ∑ a, X k a a) = ((∑ k, ∑ b, (p.eigv (X k)).1 b : ℝ) : ℂ) := by
    push_cast
    refine Finset.sum_congr rfl fun k _ => ?_
    have := sum_eig (h.eigv _ (hX k))
    push_cast at this
    exact this.symm
  rw [h3]
  unfold omega0
  rw [h.beta, h1, h2]
  have key : ∀ A B : ℝ, (-1 / p.beta * (p.beta * (A - Fintype.card κ * (m * mu)) + B)) / (Fintype.card κ : ℝ)
      = (-1 / p.beta * B) / (Fintype.card κ : ℝ) - A / (Fintype.card κ : ℝ) + m * mu := by
    intro A B
    field_simp
    ring
  rw [key]
  push_cast
  ring

/-- C129: the grand potential of the holes differs from that of the particles by a number that does not depend on the state:
minimising one is minimising the other. -/
theorem C129_hf_omega (h : HoleHf nk p p') (hb : p.beta ≠ 0) (hU : ∀ a b c d, p.U a b c d = p.U c d a b) {s s' : State m κ}
    (hmu : s'.mu = -s.mu) (hE : s.ekMF = meanFieldDispersion p.ek (meanField p.U s.rho)) (hk : ∀ k, (s.ekMF k).IsHermitian)
    (hE' : s'.ekMF = fun k => -(s.ekMF (nk k))ᵀ) (hrho : s'.rho = holeRho s.rho) :
    (updateTotalEnergy p' s').omega = (updateTotalEnergy p s).omega + eInt p.U 1
      - (∑ k, ∑ a, p.ek k a a) / (Fintype.card κ : ℂ) + m * s.mu := by
  have hKc : (Fintype.card κ : ℂ) ≠ 0 := by exact_mod_cast Fintype.card_ne_zero
  change ((omega0 p'.beta s'.mu (fun k => (p'.eigv (s'.ekMF k)).1) : ℝ) : ℂ) + eInt p'.U s'.rho
    = ((omega0 p.beta s.mu (fun k => (p.eigv (s.ekMF k)).1) : ℝ) : ℂ) + eInt p.U s.rho + eInt p.U 1 - _ + _
  rw [hmu, hE', hrho, h.U, omega0_hole h hb s.mu hk, eInt_hole p.U hU]
  have h1 : (∑ k, ∑ a, s.ekMF k a a) = (∑ k, ∑ a, p.ek k a a) - Fintype.card κ * ∑ a, ∑ c, ∑ d, p.U a a c d * s.rho c d := by
    have h2 : ∀ k a, s.ekMF k a a = p.ek k a a - ∑ c, ∑ d, p.U a a c d * s.rho c d := by
      intro k a
      rw [hE]
      change p.ek k a a + (∑ c, ∑ d, -p.U a a c d * s.rho c d) = _
      simp only [neg_mul, Finset.sum_neg_distrib]
      ring
    simp only [h2, Finset.sum_sub_distrib, Finset.sum_const, Finset.card_univ, nsmul_eq_mul]
  rw [h1, sub_div, mul_div_cancel_left₀ _ hKc]
  ring

end Step

end Verif.Mirror
