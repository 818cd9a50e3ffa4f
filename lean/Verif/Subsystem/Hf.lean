import Verif.Subsystem.Lindhard
import Verif.Basis.Hf

/-!
# C127: uncoupled subsystems in the mean-field solvers
-/

set_option linter.unusedSectionVars false

noncomputable section

namespace Verif.Subsystem

open Matrix Verif.HartreeFock Verif.Lindhard

variable {m m' m'' : ℕ} {κ V V' V'' : Type*}

/-- the problem of the subsystem, with its own external routines -/
structure PartHf (ι : Fin m' → Fin m) (p : Params m κ V) (p' : Params m' κ V') : Prop where
  inj : Function.Injective ι
  beta : p'.beta = p.beta
  ek : p'.ek = fun k => part ι (p.ek k)
  U : p'.U = cut ι p.U
  eig : EigSpec p.eig
  eig' : EigSpec p'.eig
  eigv : EigSpec p.eigv
  eigv' : EigSpec p'.eigv
  apart : ∀ k, Apart (Set.range ι) (p.ek k)
  separate : Separate (Set.range ι) p.U

variable {ι : Fin m' → Fin m} {p : Params m κ V} {p' : Params m' κ V'}

theorem meanField_part (hi : Function.Injective ι) {U : Operators.T4 m} (hU : Separate (Set.range ι) U)
    (rho : Matrix (Fin m) (Fin m) ℂ) : meanField (cut ι U) (part ι rho) = part ι (meanField U rho) := by
  ext b a
  change (∑ c, ∑ d, _) = ∑ c, ∑ d, -U (ι a) (ι b) c d * rho c d
  refine Fintype.sum_of_injective ι hi _ _ (fun c hn => ?_) fun c => ?_
  · refine Finset.sum_eq_zero fun d _ => ?_
    rcases hU (ι a) (ι b) c d with h | h
    · exact absurd (h.2.1.1 ⟨a, rfl⟩) hn
    · rw [h, neg_zero, zero_mul]
  · refine Fintype.sum_of_injective ι hi _ _ (fun d hn => ?_) fun d => rfl
    rcases hU (ι a) (ι b) (ι c) d with h | h
    · exact absurd (h.2.2.1 ⟨a, rfl⟩) hn
    · rw [h, neg_zero, zero_mul]

theorem meanField_apart {S : Set (Fin m)} {U : Operators.T4 m} (hU : Separate S U) (rho : Matrix (Fin m) (Fin m) ℂ) :
    Apart S (meanField U rho) := by
  intro b a
  by_cases h : b ∈ S ↔ a ∈ S
  · exact .inl h
  · refine .inr (Finset.sum_eq_zero fun c _ => Finset.sum_eq_zero fun d _ => ?_)
    rw [(hU a b c d).resolve_left fun h' => h h'.1.symm, neg_zero, zero_mul]

theorem momentumDensity_apply (b u : ℝ) (ei : Eig (Fin m)) (x : κ → Matrix (Fin m) (Fin m) ℂ) (k : κ) :
    momentumDensity b u (fun k => (ei (x k)).1) (fun k => (ei (x k)).2) k
      = matFun (ei (x k)) fun y => (HartreeFock.fermi b (y - u) : ℂ) := by
  ext a a'
  rw [matFun_apply]
  rfl

section Step

variable [Fintype κ] [Nonempty κ] [NeZero m] [NeZero m']

/-- C127: one step of the solver. The density matrix of the whole system may have any elements between the parts: the mean field
and the new density matrix have none, and on the subsystem they are what the solver of the subsystem obtains at the same chemical
potential. -/
theorem C127_hf_step (h : PartHf ι p p') {s s1 : State m κ} {v w : V} {N : Option ℝ}
    (hstep : densityStep p s v N = .ok (s1, w)) (hk : ∀ k, (p.ek k + meanField p.U (p.vec2mat v)).IsHermitian)
    (s' : State m' κ) (hmu : s'.mu = s1.mu) (v' : V') (hv : p'.vec2mat v' = part ι (p.vec2mat v)) :
    ∃ s1', densityStep p' s' v' none = .ok (s1', p'.mat2vec (part ι s1.rho)) ∧ s1'.mu = s1.mu ∧ s1'.M = part ι s1.M ∧
      s1'.ekMF = (fun k => part ι (s1.ekMF k)) ∧ s1'.rhok = (fun k => part ι (s1.rhok k)) ∧ s1'.rho = part ι s1.rho ∧
      Apart (Set.range ι) s1.M ∧ (∀ k, Apart (Set.range ι) (s1.ekMF k)) ∧ (∀ k, Apart (Set.range ι) (s1.rhok k)) ∧
      Apart (Set.range ι) s1.rho := by
  -- the state of the whole system after the step
  have hfields : s1.M = meanField p.U (p.vec2mat v) ∧ s1.ekMF = meanFieldDispersion p.ek s1.M ∧
      s1.rhok = momentumDensity p.beta s1.mu (fun k => (p.eig (s1.ekMF k)).1) (fun k => (p.eig (s1.ekMF k)).2) ∧
      s1.rho = density s1.rhok := by
    unfold densityStep at hstep
    cases N with
    | none =>
      dsimp only at hstep
      have := (Prod.mk.inj (Except.ok.inj hstep)).1
      rw [← this]
      exact ⟨rfl, rfl, rfl, rfl⟩
    | some N =>
      dsimp only [updateMu] at hstep
      generalize hb : p.brentq _ _ _ = r at hstep
      cases r with
      | error e => cases hstep
      | ok mu =>
        dsimp only at hstep
        have := (Prod.mk.inj (Except.ok.inj hstep)).1
        rw [← this]
        exact ⟨rfl, rfl, rfl, rfl⟩
  obtain ⟨hM, hE, hR, hD⟩ := hfields
  have hMa : Apart (Set.range ι) s1.M := by rw [hM]; exact meanField_apart h.separate _
  have hEa : ∀ k, Apart (Set.range ι) (s1.ekMF k) := fun k => by rw [hE]; exact (h.apart k).add hMa
  have hEh : ∀ k, (s1.ekMF k).IsHermitian := fun k => by rw [hE, hM]; exact hk k
  have hRk : ∀ k, s1.rhok k = matFun (p.eig (s1.ekMF k)) fun y => (HartreeFock.fermi p.beta (y - s1.mu) : ℂ) := fun k => by
    rw [hR, momentumDensity_apply]
  have hRa : ∀ k, Apart (Set.range ι) (s1.rhok k) := fun k => by
    rw [hRk]; exact matFun_apart (hEa k) (h.eig _ (hEh k)) _
  have eM : meanField p'.U (p'.vec2mat v') = part ι s1.M := by rw [h.U, hv, meanField_part h.inj h.separate, hM]
  have eE : meanFieldDispersion p'.ek (part ι s1.M) = fun k => part ι (s1.ekMF k) := by rw [hE, h.ek]; rfl
  have eR : momentumDensity p'.beta s1.mu (fun k => (p'.eig (part ι (s1.ekMF k))).1) (fun k => (p'.eig (part ι (s1.ekMF k))).2)
      = fun k => part ι (s1.rhok k) := by
    funext k
    rw [momentumDensity_apply p'.beta s1.mu p'.eig (fun k => part ι (s1.ekMF k)) k, hRk, h.beta,
      matFun_part h.inj (hEa k) (h.eig _ (hEh k)) (h.eig' _ ((hEh k).submatrix ι))]
  have eD : density (fun k => part ι (s1.rhok k)) = part ι s1.rho := by rw [hD]; rfl
  have hval : densityStep p' s' v' none = .ok (updateDensity p' (updateDispersion p' (updateMeanField p' s' (p'.vec2mat v'))),
      p'.mat2vec (updateDensity p' (updateDispersion p' (updateMeanField p' s' (p'.vec2mat v')))).rho) := rfl
  have f1 : (updateDensity p' (updateDispersion p' (updateMeanField p' s' (p'.vec2mat v')))).M = part ι s1.M := eM
  have f2 : (updateDensity p' (updateDispersion p' (updateMeanField p' s' (p'.vec2mat v')))).ekMF = fun k => part ι (s1.ekMF k) := by
    change meanFieldDispersion p'.ek (meanField p'.U (p'.vec2mat v')) = _
    rw [eM, eE]
  have f3 : (updateDensity p' (updateDispersion p' (updateMeanField p' s' (p'.vec2mat v')))).rhok = fun k => part ι (s1.rhok k) := by
    change momentumDensity p'.beta s'.mu (fun k => (p'.eig (meanFieldDispersion p'.ek (meanField p'.U (p'.vec2mat v')) k)).1)
      (fun k => (p'.eig (meanFieldDispersion p'.ek (meanField p'.U (p'.vec2mat v')) k)).2) = _
    rw [eM, eE, hmu, eR]
  have f4 : (updateDensity p' (updateDispersion p' (updateMeanField p' s' (p'.vec2mat v')))).rho = part ι s1.rho := by
    change density (updateDensity p' (updateDispersion p' (updateMeanField p' s' (p'.vec2mat v')))).rhok = _
    rw [f3, eD]
  refine ⟨updateDensity p' (updateDispersion p' (updateMeanField p' s' (p'.vec2mat v'))), by rw [hval, f4], hmu, f1, f2, f3, f4, hMa, hEa, hRa, ?_⟩
  intro a b
  by_cases hab : a ∈ Set.range ι ↔ b ∈ Set.range ι
  · exact .inl hab
  · refine .inr ?_
    rw [hD]
    change (∑ k, s1.rhok k a b) / _ = 0
    rw [Finset.sum_eq_zero fun k _ => (hRa k a b).resolve_left hab, zero_div]

end Step

/-! ## Energies -/

/-- the two parts are the whole system -/
def Whole (ι : Fin m' → Fin m) (ι' : Fin m'' → Fin m) : Prop := Function.Bijective (Sum.elim ι ι')

theorem Whole.left {ι' : Fin m'' → Fin m} (h : Whole ι ι') : Function.Injective ι := fun a b hab =>
  Sum.inl.inj (h.1 (a₁ := Sum.inl a) (a₂ := Sum.inl b) hab)

theorem Whole.right {ι' : Fin m'' → Fin m} (h : Whole ι ι') : Function.Injective ι' := fun a b hab =>
  Sum.inr.inj (h.1 (a₁ := Sum.inr a) (a₂ := Sum.inr b) hab)

theorem Whole.compl {ι' : Fin m'' → Fin m} (h : Whole ι ι') : Set.range ι' = (Set.range ι)ᶜ := by
  ext i
  constructor
  · rintro ⟨b, rfl⟩ ⟨a, ha⟩
    exact absurd (h.1 (a₁ := Sum.inl a) (a₂ := Sum.inr b) ha) Sum.inl_ne_inr
  · intro hi
    obtain ⟨x, hx⟩ := h.2 i
    cases x with
    | inl a => exact absurd ⟨a, hx⟩ hi
    | inr b => exact ⟨b, hx⟩

theorem Whole.sum {ι' : Fin m'' → Fin m} (h : Whole ι ι') {E : Type*} [AddCommMonoid E] (f : Fin m → E) :
    ∑ i, f i = ∑ a, f (ι a) + ∑ b, f (ι' b) := by
  have := Fintype.sum_bijective (Sum.elim ι ι') h (fun x => f (Sum.elim ι ι' x)) f fun _ => rfl
  rw [← this, Fintype.sum_sum_type]
  rfl

/-- a sum over four orbitals with an interaction in it -/
theorem sum_separate (hi : Function.Injective ι) {U : Operators.T4 m} (hU : Separate (Set.range ι) U)
    (rho : Matrix (Fin m) (Fin m) ℂ) (a : Fin m') :
    ∑ b, ∑ c, ∑ d, rho (ι a) b * U (ι a) b c d * rho c d
      = ∑ b, ∑ c, ∑ d, part ι rho a b * cut ι U a b c d * part ι rho c d := by
  symm
  refine Fintype.sum_of_injective ι hi _ _ (fun b hn => ?_) fun b => ?_
  · refine Finset.sum_eq_zero fun c _ => Finset.sum_eq_zero fun d _ => ?_
    rw [(hU (ι a) b c d).resolve_left fun h => hn (h.1.1 ⟨a, rfl⟩), mul_zero, zero_mul]
  · refine Fintype.sum_of_injective ι hi _ _ (fun c hn => ?_) fun c => ?_
    · refine Finset.sum_eq_zero fun d _ => ?_
      rw [(hU (ι a) (ι b) c d).resolve_left fun h => hn (h.2.1.1 ⟨a, rfl⟩), mul_zero, zero_mul]
    · refine Fintype.sum_of_injective ι hi _ _ (fun d hn => ?_) fun d => rfl
      rw [(hU (ι a) (ι b) (ι c) d).resolve_left fun h => hn (h.2.2.1 ⟨a, rfl⟩), mul_zero, zero_mul]

theorem sum_apart (hi : Function.Injective ι) {X : Matrix (Fin m) (Fin m) ℂ} (hX : Apart (Set.range ι) X)
    (Y : Matrix (Fin m) (Fin m) ℂ) (a : Fin m') : ∑ b, X (ι a) b * Y b (ι a) = ∑ b, part ι X a b * part ι Y b a := by
  symm
  refine Fintype.sum_of_injective ι hi _ _ (fun b hn => ?_) fun b => rfl
  rw [(hX (ι a) b).resolve_left fun h => hn (h.1 ⟨a, rfl⟩), zero_mul]

theorem eInt_split {ι' : Fin m'' → Fin m} (h : Whole ι ι') {U : Operators.T4 m} (hU : Separate (Set.range ι) U)
    (rho : Matrix (Fin m) (Fin m) ℂ) :
    eInt U rho = eInt (cut ι U) (part ι rho) + eInt (cut ι' U) (part ι' rho) := by
  unfold eInt
  rw [h.sum, mul_add]
  congr 2
  · exact Finset.sum_congr rfl fun a _ => sum_separate h.left hU rho a
  · exact Finset.sum_congr rfl fun a _ => sum_separate h.right (by rw [h.compl]; exact hU.compl) rho a

theorem eKin_split [Fintype κ] {ι' : Fin m'' → Fin m} (h : Whole ι ι') {ek : κ → Matrix (Fin m) (Fin m) ℂ}
    (he : ∀ k, Apart (Set.range ι) (ek k)) (rhok : κ → Matrix (Fin m) (Fin m) ℂ) :
    eKin ek rhok = eKin (fun k => part ι (ek k)) (fun k => part ι (rhok k))
      + eKin (fun k => part ι' (ek k)) (fun k => part ι' (rhok k)) := by
  unfold eKin
  rw [← add_div, ← Finset.sum_add_distrib]
  congr 1
  refine Finset.sum_congr rfl fun k _ => ?_
  rw [h.sum]
  congr 1
  · exact Finset.sum_congr rfl fun a _ => sum_apart h.left (he k) (rhok k) a
  · exact Finset.sum_congr rfl fun a _ => sum_apart h.right (by rw [h.compl]; exact (he k).compl) (rhok k) a

/-- sums over the bands -/
theorem band_sum_split {ι' : Fin m'' → Fin m} (h : Whole ι ι') {X : Matrix (Fin m) (Fin m) ℂ} (hX : Apart (Set.range ι) X)
    {q : (Fin m → ℝ) × Matrix (Fin m) (Fin m) ℂ} {q' : (Fin m' → ℝ) × Matrix (Fin m') (Fin m') ℂ}
    {q'' : (Fin m'' → ℝ) × Matrix (Fin m'') (Fin m'') ℂ} (hq : Diag X q) (hq' : Diag (part ι X) q') (hq'' : Diag (part ι' X) q'')
    (f : ℝ → ℝ) : ∑ i, f (q.1 i) = ∑ i, f (q'.1 i) + ∑ i, f (q''.1 i) := by
  have hX' : Apart (Set.range ι') X := by rw [h.compl]; exact hX.compl
  have key : ∑ i, ((f (q.1 i) : ℝ) : ℂ) = ∑ i, ((f (q'.1 i) : ℝ) : ℂ) + ∑ i, ((f (q''.1 i) : ℝ) : ℂ) := by
    rw [← Basis.trace_matFun hq fun x => (f x : ℂ), ← Basis.trace_matFun hq' fun x => (f x : ℂ),
      ← Basis.trace_matFun hq'' fun x => (f x : ℂ), ← matFun_part h.left hX hq hq', ← matFun_part h.right hX' hq hq'']
    exact h.sum fun i => matFun q (fun x => (f x : ℂ)) i i
  rw [← Complex.ofReal_sum, ← Complex.ofReal_sum, ← Complex.ofReal_sum, ← Complex.ofReal_add] at key
  exact Complex.ofReal_injective key

theorem omega0_split [Fintype κ] {ι' : Fin m'' → Fin m} (h : Whole ι ι') (beta mu : ℝ) {X : κ → Matrix (Fin m) (Fin m) ℂ}
    (hX : ∀ k, Apart (Set.range ι) (X k)) (hh : ∀ k, (X k).IsHermitian) {ei : Eig (Fin m)} {ei' : Eig (Fin m')} {ei'' : Eig (Fin m'')}
    (hs : EigSpec ei) (hs' : EigSpec ei') (hs'' : EigSpec ei'') :
    omega0 beta mu (fun k => (ei (X k)).1) = omega0 beta mu (fun k => (ei' (part ι (X k))).1)
      + omega0 beta mu (fun k => (ei'' (part ι' (X k))).1) := by
  unfold omega0
  rw [← add_div, ← mul_add, ← Finset.sum_add_distrib]
  congr 2
  refine Finset.sum_congr rfl fun k _ => ?_
  exact band_sum_split h (hX k) (hs _ (hh k)) (hs' _ ((hh k).submatrix ι)) (hs'' _ ((hh k).submatrix ι'))
    fun x => Real.log (1 + Real.exp (-beta * (x - mu)))

section Energy

variable [Fintype κ] [Nonempty κ] [NeZero m] [NeZero m'] [NeZero m''] {ι' : Fin m'' → Fin m} {p'' : Params m'' κ V''}

/-- the state of the subsystem in a state of the whole -/
structure PartState (ι : Fin m' → Fin m) (s : State m κ) (s' : State m' κ) : Prop where
  mu : s'.mu = s.mu
  ekMF : s'.ekMF = fun k => part ι (s.ekMF k)
  rho : s'.rho = part ι s.rho

theorem momentumDensity_part (h : PartHf ι p p') {s : State m κ} {s' : State m' κ} (hs : PartState ι s s')
    (ha : ∀ k, Apart (Set.range ι) (s.ekMF k)) (hh : ∀ k, (s.ekMF k).IsHermitian) :
    momentumDensity p'.beta s'.mu (fun k => (p'.eig (s'.ekMF k)).1) (fun k => (p'.eig (s'.ekMF k)).2)
      = fun k => part ι (momentumDensity p.beta s.mu (fun k => (p.eig (s.ekMF k)).1) (fun k => (p.eig (s.ekMF k)).2) k) := by
  funext k
  rw [momentumDensity_apply, momentumDensity_apply, h.beta, hs.mu, hs.ekMF]
  exact (matFun_part h.inj (ha k) (h.eig _ (hh k)) (h.eig' _ ((hh k).submatrix ι)) _).symm

/-- C127: the energies of the whole system are the sums of the energies of its parts, also the number of particles. -/
theorem C127_hf_energies (hw : Whole ι ι') (h : PartHf ι p p') (h' : PartHf ι' p p'') {s : State m κ} {s' : State m' κ}
    {s'' : State m'' κ} (hs : PartState ι s s') (hs' : PartState ι' s s'') (ha : ∀ k, Apart (Set.range ι) (s.ekMF k))
    (hh : ∀ k, (s.ekMF k).IsHermitian) :
    (updateTotalEnergy p s).ekin = (updateTotalEnergy p' s').ekin + (updateTotalEnergy p'' s'').ekin ∧
      (updateTotalEnergy p s).eint = (updateTotalEnergy p' s').eint + (updateTotalEnergy p'' s'').eint ∧
      (updateTotalEnergy p s).etot = (updateTotalEnergy p' s').etot + (updateTotalEnergy p'' s'').etot ∧
      (updateTotalEnergy p s).omega0 = (updateTotalEnergy p' s').omega0 + (updateTotalEnergy p'' s'').omega0 ∧
      (updateTotalEnergy p s).omega = (updateTotalEnergy p' s').omega + (updateTotalEnergy p'' s'').omega ∧
      (updateDensity p s).ntot = (updateDensity p' s').ntot + (updateDensity p'' s'').ntot := by
  have ha' : ∀ k, Apart (Set.range ι') (s.ekMF k) := fun k => by rw [hw.compl]; exact (ha k).compl
  have r1 := momentumDensity_part h hs ha hh
  have r2 := momentumDensity_part h' hs' ha' hh
  have hkin : (updateTotalEnergy p s).ekin = (updateTotalEnergy p' s').ekin + (updateTotalEnergy p'' s'').ekin := by
    change eKin p.ek (momentumDensity p.beta s.mu (fun k => (p.eig (s.ekMF k)).1) (fun k => (p.eig (s.ekMF k)).2))
      = eKin p'.ek (momentumDensity p'.beta s'.mu (fun k => (p'.eig (s'.ekMF k)).1) (fun k => (p'.eig (s'.ekMF k)).2))
        + eKin p''.ek (momentumDensity p''.beta s''.mu (fun k => (p''.eig (s''.ekMF k)).1) (fun k => (p''.eig (s''.ekMF k)).2))
    rw [r1, r2, h.ek, h'.ek]
    exact eKin_split hw h.apart _
  have hint : (updateTotalEnergy p s).eint = (updateTotalEnergy p' s').eint + (updateTotalEnergy p'' s'').eint := by
    change eInt p.U s.rho = eInt p'.U s'.rho + eInt p''.U s''.rho
    rw [h.U, h'.U, hs.rho, hs'.rho]
    exact eInt_split hw h.separate _
  have h0 : (updateTotalEnergy p s).omega0 = (updateTotalEnergy p' s').omega0 + (updateTotalEnergy p'' s'').omega0 := by
    change omega0 p.beta s.mu (fun k => (p.eigv (s.ekMF k)).1) = omega0 p'.beta s'.mu (fun k => (p'.eigv (s'.ekMF k)).1)
      + omega0 p''.beta s''.mu (fun k => (p''.eigv (s''.ekMF k)).1)
    rw [h.beta, h'.beta, hs.mu, hs'.mu, hs.ekMF, hs'.ekMF]
    exact omega0_split hw _ _ ha hh h.eigv h.eigv' h'.eigv'
  refine ⟨hkin, hint, ?_, h0, ?_, ?_⟩
  · change (updateTotalEnergy p s).ekin + (updateTotalEnergy p s).eint = ((updateTotalEnergy p' s').ekin
      + (updateTotalEnergy p' s').eint) + ((updateTotalEnergy p'' s'').ekin + (updateTotalEnergy p'' s'').eint)
    rw [hkin, hint]
    ring
  · change (((updateTotalEnergy p s).omega0 : ℝ) : ℂ) + (updateTotalEnergy p s).eint = ((((updateTotalEnergy p' s').omega0 : ℝ) : ℂ)
      + (updateTotalEnergy p' s').eint) + ((((updateTotalEnergy p'' s'').omega0 : ℝ) : ℂ) + (updateTotalEnergy p'' s'').eint)
    rw [h0, hint, Complex.ofReal_add]
    ring
  · change ∑ a, density (momentumDensity p.beta s.mu (fun k => (p.eig (s.ekMF k)).1) (fun k => (p.eig (s.ekMF k)).2)) a a
      = (∑ a, density (momentumDensity p'.beta s'.mu (fun k => (p'.eig (s'.ekMF k)).1) (fun k => (p'.eig (s'.ekMF k)).2)) a a)
        + ∑ a, density (momentumDensity p''.beta s''.mu (fun k => (p''.eig (s''.ekMF k)).1) (fun k => (p''.eig (s''.ekMF k)).2)) a a
    rw [r1, r2]
    exact hw.sum _

end Energy

/-! ## Solutions -/

section Solutions

variable [Fintype κ] {ι' : Fin m'' → Fin m}

/-- the self-consistency equation of the mean-field theory -/
def Solution {q : ℕ} (U : Operators.T4 q) (beta mu : ℝ) (ek : κ → Matrix (Fin q) (Fin q) ℂ) (rho : Matrix (Fin q) (Fin q) ℂ) : Prop :=
  rho = thermalDensity beta (fun k => ek k + meanField U rho) mu

theorem apart_ext (hw : Whole ι ι') {X Y : Matrix (Fin m) (Fin m) ℂ} (hX : Apart (Set.range ι) X) (hY : Apart (Set.range ι) Y)
    (h : part ι X = part ι Y) (h' : part ι' X = part ι' Y) : X = Y := by
  ext i j
  by_cases hij : i ∈ Set.range ι ↔ j ∈ Set.range ι
  · by_cases hi : i ∈ Set.range ι
    · obtain ⟨a, rfl⟩ := hi
      obtain ⟨b, rfl⟩ := hij.1 ⟨a, rfl⟩
      exact congrFun (congrFun h a) b
    · have hj : j ∉ Set.range ι := fun x => hi (hij.2 x)
      rw [← Set.mem_compl_iff, ← hw.compl] at hi hj
      obtain ⟨a, rfl⟩ := hi
      obtain ⟨b, rfl⟩ := hj
      exact congrFun (congrFun h' a) b
  · rw [(hX i j).resolve_left hij, (hY i j).resolve_left hij]

theorem thermalDensity_part (hi : Function.Injective ι) (beta mu : ℝ) {X : κ → Matrix (Fin m) (Fin m) ℂ}
    (hX : ∀ k, Apart (Set.range ι) (X k)) (hh : ∀ k, (X k).IsHermitian) :
    part ι (thermalDensity beta X mu) = thermalDensity beta (fun k => part ι (X k)) mu := by
  obtain ⟨ei, hs⟩ := exists_eigSpec (o := Fin m)
  obtain ⟨ei', hs'⟩ := exists_eigSpec (o := Fin m')
  ext a b
  change ((Fintype.card κ : ℂ)⁻¹ • ∑ k, HfResponse.fermiMatrix beta (X k - (mu : ℂ) • 1)) (ι a) (ι b) = ((Fintype.card κ : ℂ)⁻¹ •
    ∑ k, HfResponse.fermiMatrix beta (part ι (X k) - (mu : ℂ) • 1)) a b
  rw [Matrix.smul_apply, Matrix.smul_apply, Matrix.sum_apply, Matrix.sum_apply]
  congr 1
  refine Finset.sum_congr rfl fun k _ => ?_
  have hd : Diag (part ι (X k)) (ei' (part ι (X k))) := hs' _ ((hh k).submatrix ι)
  rw [fermiMatrix_shift beta mu (hs _ (hh k)), fermiMatrix_shift beta mu hd, ← matFun_part hi (hX k) (hs _ (hh k)) hd]
  rfl

theorem thermalDensity_apart {S : Set (Fin m)} (beta mu : ℝ) {X : κ → Matrix (Fin m) (Fin m) ℂ}
    (hX : ∀ k, Apart S (X k)) (hh : ∀ k, (X k).IsHermitian) : Apart S (thermalDensity beta X mu) := by
  obtain ⟨ei, hs⟩ := exists_eigSpec (o := Fin m)
  refine Apart.smul _ (Finset.sum_induction _ _ (fun _ _ => Apart.add) apart_zero fun k _ => ?_)
  rw [fermiMatrix_shift beta mu (hs _ (hh k))]
  exact matFun_apart (hX k) (hs _ (hh k)) _

/-- C127: the mean-field solutions of the whole system at a chemical potential are the pairs of solutions of its parts. There is
no solution that connects them. -/
theorem C127_hf_solutions (hw : Whole ι ι') {U : Operators.T4 m} (hU : Separate (Set.range ι) U) (beta mu : ℝ)
    {ek : κ → Matrix (Fin m) (Fin m) ℂ} (he : ∀ k, Apart (Set.range ι) (ek k)) {rho : Matrix (Fin m) (Fin m) ℂ}
    (hh : ∀ k, (ek k + meanField U rho).IsHermitian) :
    Solution U beta mu ek rho ↔ Apart (Set.range ι) rho ∧
      Solution (cut ι U) beta mu (fun k => part ι (ek k)) (part ι rho) ∧
      Solution (cut ι' U) beta mu (fun k => part ι' (ek k)) (part ι' rho) := by
  have hU' : Separate (Set.range ι') U := by rw [hw.compl]; exact hU.compl
  have he' : ∀ k, Apart (Set.range ι') (ek k) := fun k => by rw [hw.compl]; exact (he k).compl
  have hX : ∀ k, Apart (Set.range ι) (ek k + meanField U rho) := fun k => (he k).add (meanField_apart hU rho)
  have hX' : ∀ k, Apart (Set.range ι') (ek k + meanField U rho) := fun k => (he' k).add (meanField_apart hU' rho)
  have e1 : part ι (thermalDensity beta (fun k => ek k + meanField U rho) mu)
      = thermalDensity beta (fun k => part ι (ek k) + meanField (cut ι U) (part ι rho)) mu := by
    rw [thermalDensity_part hw.left beta mu hX hh, meanField_part hw.left hU]
    rfl
  have e2 : part ι' (thermalDensity beta (fun k => ek k + meanField U rho) mu)
      = thermalDensity beta (fun k => part ι' (ek k) + meanField (cut ι' U) (part ι' rho)) mu := by
    rw [thermalDensity_part hw.right beta mu hX' hh, meanField_part hw.right hU']
    rfl
  have ha := thermalDensity_apart beta mu hX hh
  unfold Solution
  rw [← e1, ← e2]
  constructor
  · intro h
    exact ⟨by rw [h]; exact ha, congrArg _ h, congrArg _ h⟩
  · rintro ⟨h1, h2, h3⟩
    exact apart_ext hw h1 ha h2 h3

end Solutions

end Verif.Subsystem
