import Verif.Units.Lindhard
import Verif.Basis.Hf
import Verif.HartreeFock.SolverState

/-!
# C126: unit and zero of energy of the Hartree-Fock and Hartree solvers
-/

set_option linter.unusedSectionVars false

noncomputable section

namespace Verif.Units

open Matrix Verif.HartreeFock Verif.Lindhard

/-- both fail with the same error, or both succeed with related results -/
def Both {E A B : Type*} (R : A → B → Prop) : Except E A → Except E B → Prop
  | .ok a, .ok b => R a b
  | .error e, .error e' => e = e'
  | _, _ => False

/-- description of a calculation in another unit `l` and with another zero of energy `c`; the diagonalisations may be
different -/
structure SameProblem {m : ℕ} {κ V : Type*} (l c : ℝ) (p p' : Params m κ V) : Prop where
  pos : 0 < l
  beta : p'.beta = p.beta / l
  muMin : p'.muMin = p.muMin.map fun x => l * x + c
  muMax : p'.muMax = p.muMax.map fun x => l * x + c
  ek : p'.ek = affine (l : ℂ) (c : ℂ) p.ek
  U : p'.U = fun i j r s => (l : ℂ) * p.U i j r s
  mat2vec : p'.mat2vec = p.mat2vec
  vec2mat : p'.vec2mat = p.vec2mat
  eig : EigSpec p.eig
  eig' : EigSpec p'.eig
  eigv : EigSpec p.eigv
  eigv' : EigSpec p'.eigv
  brentq : ∀ f a b, p'.brentq (fun x => f ((x - c) / l)) (l * a + c) (l * b + c) = (p.brentq f a b).map fun x => l * x + c

/-- the states of the two calculations describe the same physics -/
structure SameUnits {m : ℕ} {κ : Type*} (l c : ℝ) (s s' : State m κ) : Prop where
  mu : s'.mu = l * s.mu + c
  M : s'.M = (l : ℂ) • s.M
  ekMF : s'.ekMF = affine (l : ℂ) (c : ℂ) s.ekMF
  rhok : s'.rhok = s.rhok
  rho : s'.rho = s.rho
  ntot : s'.ntot = s.ntot

/-- and have the same energies: the kinetic and the total energy contain the zero of energy times the number of particles, the
grand potentials do not -/
structure SameEnergies {m : ℕ} {κ : Type*} (l c : ℝ) (s s' : State m κ) : Prop where
  ekin : s'.ekin = l * s.ekin + c * s.ntot
  eint : s'.eint = l * s.eint
  etot : s'.etot = l * s.etot + c * s.ntot
  omega0 : s'.omega0 = l * s.omega0
  omega : s'.omega = l * s.omega

variable {m : ℕ} {κ V : Type*} {l c : ℝ}

/-! ## Functions of the bands -/

theorem diag_affine {X : Matrix (Fin m) (Fin m) ℂ} {p : (Fin m → ℝ) × Matrix (Fin m) (Fin m) ℂ} (h : Diag X p) (l c : ℝ) :
    Diag ((l : ℂ) • X + (c : ℂ) • 1) (fun i => l * p.1 i + c, p.2) := diag_add (diag_smul h l) c

theorem matFun_affine {eig eig' : Eig (Fin m)} (hs : EigSpec eig) (hs' : EigSpec eig') {X : Matrix (Fin m) (Fin m) ℂ}
    (hX : X.IsHermitian) (l c : ℝ) (f : ℝ → ℂ) :
    matFun (eig' ((l : ℂ) • X + (c : ℂ) • 1)) f = matFun (eig X) fun x => f (l * x + c) :=
  matFun_unique (hs' _ (affine_herm hX l c)) (diag_affine (hs _ hX) l c) f

theorem sum_affine {eig eig' : Eig (Fin m)} (hs : EigSpec eig) (hs' : EigSpec eig') {X : Matrix (Fin m) (Fin m) ℂ}
    (hX : X.IsHermitian) (l c : ℝ) (f : ℝ → ℝ) :
    ∑ i, f ((eig' ((l : ℂ) • X + (c : ℂ) • 1)).1 i) = ∑ i, f (l * (eig X).1 i + c) := by
  have h : ∑ i, ((f ((eig' ((l : ℂ) • X + (c : ℂ) • 1)).1 i) : ℝ) : ℂ) = ∑ i, ((f (l * (eig X).1 i + c) : ℝ) : ℂ) := by
    rw [← Basis.trace_matFun (hs' _ (affine_herm hX l c)) fun x => (f x : ℂ), matFun_affine hs hs' hX,
      Basis.trace_matFun (hs _ hX)]
  rw [← Complex.ofReal_sum, ← Complex.ofReal_sum] at h
  exact Complex.ofReal_injective h

theorem range_affine {eig eig' : Eig (Fin m)} (hs : EigSpec eig) (hs' : EigSpec eig') {X : Matrix (Fin m) (Fin m) ℂ}
    (hX : X.IsHermitian) (l c x : ℝ) :
    (∃ i, (eig' ((l : ℂ) • X + (c : ℂ) • 1)).1 i = x) ↔ ∃ i, l * (eig X).1 i + c = x := by
  classical
  have h := sum_affine hs hs' hX l c fun y => if y = x then (1 : ℝ) else 0
  have key : ∀ e : Fin m → ℝ, (∃ i, e i = x) ↔ 0 < ∑ i, if e i = x then (1 : ℝ) else 0 := by
    intro e
    constructor
    · rintro ⟨i, hi⟩
      refine Finset.sum_pos' (fun j _ => by split_ifs <;> norm_num) ⟨i, Finset.mem_univ i, by simp [hi]⟩
    · intro hpos
      by_contra hno
      push Not at hno
      rw [Finset.sum_eq_zero fun i _ => if_neg (hno i)] at hpos
      exact lt_irrefl _ hpos
  rw [key, key fun i => l * (eig X).1 i + c, h]

theorem fermi_affine (hl : 0 < l) (beta x mu : ℝ) : HartreeFock.fermi (beta / l) (l * x + c - (l * mu + c)) = HartreeFock.fermi beta (x - mu) := by
  unfold HartreeFock.fermi
  congr 3
  field_simp
  ring

theorem momentumDensity_affine {eig eig' : Eig (Fin m)} (hs : EigSpec eig) (hs' : EigSpec eig') (hl : 0 < l) (beta mu : ℝ)
    {h : κ → Matrix (Fin m) (Fin m) ℂ} (hh : ∀ k, (h k).IsHermitian) :
    momentumDensity (beta / l) (l * mu + c) (fun k => (eig' (affine (l : ℂ) (c : ℂ) h k)).1)
        (fun k => (eig' (affine (l : ℂ) (c : ℂ) h k)).2)
      = momentumDensity beta mu (fun k => (eig (h k)).1) fun k => (eig (h k)).2 := by
  have h1 : ∀ (b u : ℝ) (ei : Eig (Fin m)) (x : κ → Matrix (Fin m) (Fin m) ℂ) (k : κ),
      momentumDensity b u (fun k => (ei (x k)).1) (fun k => (ei (x k)).2) k
        = matFun (ei (x k)) fun y => (HartreeFock.fermi b (y - u) : ℂ) := by
    intro b u ei x k
    ext a a'
    rw [matFun_apply]
    rfl
  funext k
  rw [h1 _ _ eig', h1 _ _ eig]
  change matFun (eig' ((l : ℂ) • h k + (c : ℂ) • 1)) _ = _
  rw [matFun_affine hs hs' (hh k)]
  simp only [fermi_affine hl]

/-! ## One step -/

section Step

variable [Fintype κ] [Nonempty κ] [NeZero m] {p p' : Params m κ V}

theorem target_affine (hp : SameProblem l c p p') {s s' : State m κ} (hek : s'.ekMF = affine (l : ℂ) (c : ℂ) s.ekMF)
    (hh : ∀ k, (s.ekMF k).IsHermitian) (N : ℝ) :
    targetFunction p' s' N = fun x => targetFunction p s N ((x - c) / l) := by
  funext mu
  unfold targetFunction
  rw [hek, hp.beta]
  congr 2
  refine Finset.sum_congr rfl fun k _ => ?_
  change ∑ b, HartreeFock.fermi (p.beta / l) ((p'.eigv ((l : ℂ) • s.ekMF k + (c : ℂ) • 1)).1 b - mu) = _
  rw [sum_affine hp.eigv hp.eigv' (hh k) l c fun x => HartreeFock.fermi (p.beta / l) (x - mu)]
  refine Finset.sum_congr rfl fun b _ => ?_
  have : mu = l * ((mu - c) / l) + c := by have := hp.pos; field_simp; ring
  conv_lhs => rw [this]
  exact fermi_affine hp.pos _ _ _

theorem eMin_affine (hp : SameProblem l c p p') {s s' : State m κ} (hek : s'.ekMF = affine (l : ℂ) (c : ℂ) s.ekMF)
    (hh : ∀ k, (s.ekMF k).IsHermitian) : eMin p' s' = l * eMin p s + c := by
  have hl := hp.pos
  have hle : ∀ x : κ × Fin m, eMin p s ≤ (p.eigv (s.ekMF x.1)).1 x.2 := fun x =>
    Finset.inf'_le (fun x : κ × Fin m => (p.eigv (s.ekMF x.1)).1 x.2) (Finset.mem_univ x)
  apply le_antisymm
  · obtain ⟨x, -, hx⟩ := Finset.exists_mem_eq_inf' (Finset.univ_nonempty (α := κ × Fin m))
      fun x : κ × Fin m => (p.eigv (s.ekMF x.1)).1 x.2
    have hx' : eMin p s = (p.eigv (s.ekMF x.1)).1 x.2 := hx
    obtain ⟨i, hi⟩ := (range_affine hp.eigv hp.eigv' (hh x.1) l c (l * (p.eigv (s.ekMF x.1)).1 x.2 + c)).mpr ⟨x.2, rfl⟩
    rw [hx', ← hi]
    unfold eMin
    rw [hek]
    exact Finset.inf'_le (fun x : κ × Fin m => (p'.eigv (affine (l : ℂ) (c : ℂ) s.ekMF x.1)).1 x.2) (Finset.mem_univ (x.1, i))
  · unfold eMin
    rw [hek]
    refine Finset.le_inf' _ _ fun x _ => ?_
    obtain ⟨i, hi⟩ := (range_affine hp.eigv hp.eigv' (hh x.1) l c _).mp ⟨x.2, rfl⟩
    change _ ≤ (p'.eigv ((l : ℂ) • s.ekMF x.1 + (c : ℂ) • 1)).1 x.2
    rw [← hi]
    have := hle (x.1, i)
    change l * eMin p s + c ≤ _
    nlinarith

theorem eMax_affine (hp : SameProblem l c p p') {s s' : State m κ} (hek : s'.ekMF = affine (l : ℂ) (c : ℂ) s.ekMF)
    (hh : ∀ k, (s.ekMF k).IsHermitian) : eMax p' s' = l * eMax p s + c := by
  have hl := hp.pos
  have hle : ∀ x : κ × Fin m, (p.eigv (s.ekMF x.1)).1 x.2 ≤ eMax p s := fun x =>
    Finset.le_sup' (fun x : κ × Fin m => (p.eigv (s.ekMF x.1)).1 x.2) (Finset.mem_univ x)
  apply le_antisymm
  · unfold eMax
    rw [hek]
    refine Finset.sup'_le _ _ fun x _ => ?_
    obtain ⟨i, hi⟩ := (range_affine hp.eigv hp.eigv' (hh x.1) l c _).mp ⟨x.2, rfl⟩
    change (p'.eigv ((l : ℂ) • s.ekMF x.1 + (c : ℂ) • 1)).1 x.2 ≤ _
    rw [← hi]
    have := hle (x.1, i)
    change _ ≤ l * eMax p s + c
    nlinarith
  · obtain ⟨x, -, hx⟩ := Finset.exists_mem_eq_sup' (Finset.univ_nonempty (α := κ × Fin m))
      fun x : κ × Fin m => (p.eigv (s.ekMF x.1)).1 x.2
    have hx' : eMax p s = (p.eigv (s.ekMF x.1)).1 x.2 := hx
    obtain ⟨i, hi⟩ := (range_affine hp.eigv hp.eigv' (hh x.1) l c (l * (p.eigv (s.ekMF x.1)).1 x.2 + c)).mpr ⟨x.2, rfl⟩
    rw [hx', ← hi]
    unfold eMax
    rw [hek]
    exact Finset.le_sup' (fun x : κ × Fin m => (p'.eigv (affine (l : ℂ) (c : ℂ) s.ekMF x.1)).1 x.2) (Finset.mem_univ (x.1, i))

/-- the parts of the state the update of the density reads -/
structure SameBands (l c : ℝ) (s s' : State m κ) : Prop where
  M : s'.M = (l : ℂ) • s.M
  ekMF : s'.ekMF = affine (l : ℂ) (c : ℂ) s.ekMF
  herm : ∀ k, (s.ekMF k).IsHermitian

theorem updateMu_affine (hp : SameProblem l c p p') {s s' : State m κ} (h : SameBands l c s s') (N : ℝ) (x x' : Option ℝ) :
    Both (fun t t' => t'.mu = l * t.mu + c ∧ t = { s with mu := t.mu } ∧ t' = { s' with mu := t'.mu }) (updateMu p s N x)
      (updateMu p' s' N x') := by
  rw [Basis.updateMu_eq, Basis.updateMu_eq, target_affine hp h.ekMF h.herm, eMin_affine hp h.ekMF h.herm,
    eMax_affine hp h.ekMF h.herm, hp.muMin, hp.muMax]
  have h1 : ∀ (o : Option ℝ) (y : ℝ), (o.map fun x => l * x + c).getD (l * y + c) = l * o.getD y + c := by
    intro o y
    cases o <;> rfl
  rw [h1, h1, hp.brentq]
  cases p.brentq (targetFunction p s N) (p.muMin.getD (eMin p s)) (p.muMax.getD (eMax p s)) with
  | error e => rfl
  | ok mu => exact ⟨rfl, rfl, rfl⟩

theorem updateDensity_affine (hp : SameProblem l c p p') {s s' : State m κ} (hmu : s'.mu = l * s.mu + c)
    (h : SameBands l c s s') : SameUnits l c (updateDensity p s) (updateDensity p' s') := by
  have h1 : (updateDensity p' s').rhok = (updateDensity p s).rhok := by
    change momentumDensity p'.beta s'.mu (fun k => (p'.eig (s'.ekMF k)).1) (fun k => (p'.eig (s'.ekMF k)).2) = _
    rw [hmu, h.ekMF, hp.beta]
    exact momentumDensity_affine hp.eig hp.eig' hp.pos p.beta s.mu h.herm
  have h2 : (updateDensity p' s').rho = (updateDensity p s).rho := by
    change density (updateDensity p' s').rhok = _
    rw [h1]
    rfl
  refine ⟨hmu, h.M, h.ekMF, h1, h2, ?_⟩
  change Matrix.trace (updateDensity p' s').rho = Matrix.trace (updateDensity p s).rho
  rw [h2]

theorem meanField_scale (U : Operators.T4 m) (rho : Matrix (Fin m) (Fin m) ℂ) :
    meanField (fun i j r s => (l : ℂ) * U i j r s) rho = (l : ℂ) • meanField U rho := by
  ext a b
  simp only [meanField, Matrix.smul_apply, smul_eq_mul, Finset.mul_sum]
  refine Finset.sum_congr rfl fun _ _ => Finset.sum_congr rfl fun _ _ => ?_
  ring

theorem dispersion_affine (hp : SameProblem l c p p') (M : Matrix (Fin m) (Fin m) ℂ) :
    meanFieldDispersion p'.ek ((l : ℂ) • M) = affine (l : ℂ) (c : ℂ) (meanFieldDispersion p.ek M) := by
  funext k
  rw [meanFieldDispersion, hp.ek]
  simp only [affine, meanFieldDispersion, smul_add]
  abel

/-- C126: a step of the solver, at fixed density or fixed chemical potential, from the same density matrix. -/
theorem C126_hf_step (hp : SameProblem l c p p') {s s' : State m κ} (hmu : s'.mu = l * s.mu + c) (v : V)
    (hh : ∀ k, (p.ek k + meanField p.U (p.vec2mat v)).IsHermitian) (N : Option ℝ) :
    Both (fun x x' => SameUnits l c x.1 x'.1 ∧ (∀ k, (x.1.ekMF k).IsHermitian) ∧ x'.2 = x.2) (densityStep p s v N)
      (densityStep p' s' v N) := by
  unfold densityStep
  dsimp only
  rw [hp.vec2mat]
  set t := updateDispersion p (updateMeanField p s (p.vec2mat v)) with ht
  set t' := updateDispersion p' (updateMeanField p' s' (p.vec2mat v)) with ht'
  have hM : t'.M = (l : ℂ) • t.M := by
    change meanField p'.U (p.vec2mat v) = (l : ℂ) • meanField p.U (p.vec2mat v)
    rw [hp.U, meanField_scale]
  have hb : SameBands l c t t' := by
    refine ⟨hM, ?_, hh⟩
    change meanFieldDispersion p'.ek t'.M = affine (l : ℂ) (c : ℂ) (meanFieldDispersion p.ek t.M)
    rw [hM, dispersion_affine hp]
  have hm : t'.mu = l * t.mu + c := hmu
  cases N with
  | none =>
    have h := updateDensity_affine hp hm hb
    refine ⟨h, hh, ?_⟩
    change p'.mat2vec (updateDensity p' t').rho = p.mat2vec (updateDensity p t).rho
    rw [hp.mat2vec, h.rho]
  | some N =>
    dsimp only
    have hu := updateMu_affine hp hb N (some t.mu) (some t'.mu)
    cases h1 : updateMu p t N (some t.mu) with
    | error e =>
      cases h2 : updateMu p' t' N (some t'.mu) with
      | error e' => rw [h1, h2] at hu; exact hu
      | ok x => rw [h1, h2] at hu; exact hu.elim
    | ok x =>
      cases h2 : updateMu p' t' N (some t'.mu) with
      | error e' => rw [h1, h2] at hu; exact hu.elim
      | ok x' =>
        rw [h1, h2] at hu
        obtain ⟨u1, u2, u3⟩ := hu
        have hb' : SameBands l c x x' := by
          rw [u2, u3]
          exact ⟨hb.M, hb.ekMF, hb.herm⟩
        have h := updateDensity_affine hp u1 hb'
        refine ⟨h, hb'.herm, ?_⟩
        change p'.mat2vec (updateDensity p' x').rho = p.mat2vec (updateDensity p x).rho
        rw [hp.mat2vec, h.rho]

theorem eKin_affine (hp : SameProblem l c p p') (rhok : κ → Matrix (Fin m) (Fin m) ℂ) :
    eKin p'.ek rhok = l * eKin p.ek rhok + c * (density rhok).trace := by
  have h1 : ∀ x y : κ → Matrix (Fin m) (Fin m) ℂ, eKin x y = (∑ k, (x k * y k).trace) / (Fintype.card κ : ℂ) := by
    intro x y
    simp only [eKin, Matrix.trace, Matrix.diag_apply, Matrix.mul_apply]
  have h2 : (density rhok).trace = (∑ k, (rhok k).trace) / (Fintype.card κ : ℂ) := by
    simp only [density, Matrix.trace, Matrix.diag_apply]
    rw [← Finset.sum_div, Finset.sum_comm]
  have h3 : ∀ k, (p'.ek k * rhok k).trace = l * (p.ek k * rhok k).trace + c * (rhok k).trace := by
    intro k
    rw [hp.ek, affine, Matrix.add_mul, Matrix.trace_add, Matrix.smul_mul, Matrix.smul_mul, Matrix.one_mul, Matrix.trace_smul,
      Matrix.trace_smul, smul_eq_mul, smul_eq_mul]
  rw [h1, h1, h2, Finset.sum_congr rfl fun k _ => h3 k, Finset.sum_add_distrib, ← Finset.mul_sum, ← Finset.mul_sum, add_div,
    mul_div_assoc, mul_div_assoc]

theorem omega0_affine (hp : SameProblem l c p p') {h : κ → Matrix (Fin m) (Fin m) ℂ} (hh : ∀ k, (h k).IsHermitian) (mu : ℝ) :
    omega0 p'.beta (l * mu + c) (fun k => (p'.eigv (affine (l : ℂ) (c : ℂ) h k)).1)
      = l * omega0 p.beta mu fun k => (p.eigv (h k)).1 := by
  have hl := hp.pos
  unfold omega0
  have h1 : ∀ k, ∑ b, Real.log (1 + Real.exp (-p'.beta * ((p'.eigv (affine (l : ℂ) (c : ℂ) h k)).1 b - (l * mu + c))))
      = ∑ b, Real.log (1 + Real.exp (-p.beta * ((p.eigv (h k)).1 b - mu))) := by
    intro k
    refine (sum_affine hp.eigv hp.eigv' (hh k) l c fun x => Real.log (1 + Real.exp (-p'.beta * (x - (l * mu + c))))).trans ?_
    refine Finset.sum_congr rfl fun b _ => ?_
    rw [hp.beta]
    congr 3
    field_simp
    ring
  rw [Finset.sum_congr rfl fun k _ => h1 k, hp.beta, div_div_eq_mul_div]
  ring

/-- C126: the energies and potentials of corresponding states, once the density matrix belongs to the bands. -/
theorem C126_hf_energy (hp : SameProblem l c p p') {s s' : State m κ} (h : SameUnits l c s s')
    (hh : ∀ k, (s.ekMF k).IsHermitian) (hrho : s.rho = (updateDensity p s).rho) (hn : s.ntot = s.rho.trace) :
    SameUnits l c (updateTotalEnergy p s) (updateTotalEnergy p' s') ∧
      SameEnergies l c (updateTotalEnergy p s) (updateTotalEnergy p' s') := by
  set t := updateTotalEnergy p s with ht
  set t' := updateTotalEnergy p' s' with ht'
  have hk : t'.rhok = t.rhok := by
    change momentumDensity p'.beta s'.mu (fun k => (p'.eig (s'.ekMF k)).1) (fun k => (p'.eig (s'.ekMF k)).2) = _
    rw [h.mu, h.ekMF, hp.beta]
    exact momentumDensity_affine hp.eig hp.eig' hp.pos p.beta s.mu hh
  have hd : (density t.rhok).trace = t.ntot := by
    change (updateDensity p s).rho.trace = s.ntot
    rw [hn, hrho]
  have hkin : t'.ekin = l * t.ekin + c * t.ntot := by
    change eKin p'.ek t'.rhok = l * eKin p.ek t.rhok + c * t.ntot
    rw [hk, eKin_affine hp, hd]
  have hint : t'.eint = l * t.eint := by
    change eInt p'.U s'.rho = l * eInt p.U s.rho
    rw [h.rho, hp.U]
    simp only [eInt, Finset.mul_sum]
    refine Finset.sum_congr rfl fun _ _ => Finset.sum_congr rfl fun _ _ => Finset.sum_congr rfl fun _ _ =>
        Finset.sum_congr rfl fun _ _ => ?_
    ring
  have hom : t'.omega0 = l * t.omega0 := by
    change omega0 p'.beta s'.mu (fun k => (p'.eigv (s'.ekMF k)).1) = l * omega0 p.beta s.mu fun k => (p.eigv (s.ekMF k)).1
    rw [h.mu, h.ekMF, omega0_affine hp hh]
  refine ⟨⟨h.mu, h.M, h.ekMF, hk, h.rho, h.ntot⟩, hkin, hint, ?_, hom, ?_⟩
  · change t'.ekin + t'.eint = l * (t.ekin + t.eint) + c * t.ntot
    rw [hkin, hint]
    ring
  · change (t'.omega0 : ℂ) + t'.eint = l * ((t.omega0 : ℂ) + t.eint)
    rw [hom, hint]
    push_cast
    ring

/-! ## The drivers -/

/-- what the drivers keep -/
structure Same (l c : ℝ) (p : Params m κ V) (s s' : State m κ) : Prop where
  units : SameUnits l c s s'
  herm : ∀ k, (s.ekMF k).IsHermitian
  rho : s.rho = (updateDensity p s).rho
  ntot : s.ntot = s.rho.trace

theorem updateDensity_idem (s : State m κ) : (updateDensity p (updateDensity p s)).rho = (updateDensity p s).rho := rfl

theorem densityStep_fix {s t : State m κ} {v w : V} {N : Option ℝ} (h : densityStep p s v N = .ok (t, w)) :
    t.rho = (updateDensity p t).rho ∧ t.ntot = t.rho.trace := by
  unfold densityStep at h
  dsimp only at h
  split at h
  · cases h
  · obtain ⟨e1, -⟩ := Prod.mk.inj (Except.ok.inj h)
    rw [← e1]
    exact ⟨rfl, rfl⟩

theorem densityStep_same (hp : SameProblem l c p p') {s s' : State m κ} (hmu : s'.mu = l * s.mu + c)
    (hh : ∀ v k, (p.ek k + meanField p.U (p.vec2mat v)).IsHermitian) (v : V) (N : Option ℝ) :
    Both (fun x x' => Same l c p x.1 x'.1 ∧ x'.2 = x.2) (densityStep p s v N) (densityStep p' s' v N) := by
  have h := C126_hf_step hp hmu v (hh v) N
  cases h1 : densityStep p s v N with
  | error e =>
    cases h2 : densityStep p' s' v N with
    | error e' => rw [h1, h2] at h; exact h
    | ok x => rw [h1, h2] at h; exact h.elim
  | ok x =>
    cases h2 : densityStep p' s' v N with
    | error e' => rw [h1, h2] at h; exact h.elim
    | ok x' =>
      rw [h1, h2] at h
      obtain ⟨f1, f2⟩ := densityStep_fix h1
      exact ⟨⟨h.1, h.2.1, f1, f2⟩, h.2.2⟩

theorem solveSetup_same (hp : SameProblem l c p p') {s s' : State m κ} (hb : SameBands l c s s')
    {M0 : Option (Matrix (Fin m) (Fin m) ℂ)} (hh0 : ∀ k, (p.ek k + M0.getD 0).IsHermitian) (N : ℝ) (mu0 : Option ℝ) :
    Both (fun x x' => Same l c p x.1 x'.1 ∧ x'.2 = x.2) (solveSetup p s N M0 mu0)
      (solveSetup p' s' N (M0.map fun M => (l : ℂ) • M) (mu0.map fun x => l * x + c)) := by
  have key : ∀ s1 s1' : State m κ,
      Both (fun x x' => Same l c p x.1 x'.1 ∧ x'.2 = x.2)
        (match updateMu p (updateDispersion p { s1 with M := M0.getD 0 }) N none with
          | .error e => Except.error e
          | .ok s => Except.ok (updateDensity p s, p.mat2vec (updateDensity p s).rho))
        (match updateMu p' (updateDispersion p' { s1' with M := (M0.map fun M => (l : ℂ) • M).getD 0 }) N none with
          | .error e => Except.error e
          | .ok s => Except.ok (updateDensity p' s, p'.mat2vec (updateDensity p' s).rho)) := by
    intro s1 s1'
    have hM0 : (M0.map fun M => (l : ℂ) • M).getD 0 = (l : ℂ) • M0.getD 0 := by
      cases M0 with
      | none => exact (smul_zero _).symm
      | some M => rfl
    set t := updateDispersion p { s1 with M := M0.getD 0 } with ht
    set t' := updateDispersion p' { s1' with M := (M0.map fun M => (l : ℂ) • M).getD 0 } with ht'
    have hbt : SameBands l c t t' := by
      refine ⟨hM0, ?_, hh0⟩
      change meanFieldDispersion p'.ek ((M0.map fun M => (l : ℂ) • M).getD 0) = _
      rw [hM0, dispersion_affine hp]
      rfl
    have hu := updateMu_affine hp hbt N none none
    cases h1 : updateMu p t N none with
    | error e =>
      cases h2 : updateMu p' t' N none with
      | error e' => rw [h1, h2] at hu; exact hu
      | ok x => rw [h1, h2] at hu; exact hu.elim
    | ok x =>
      cases h2 : updateMu p' t' N none with
      | error e' => rw [h1, h2] at hu; exact hu.elim
      | ok x' =>
        rw [h1, h2] at hu
        obtain ⟨u1, u2, u3⟩ := hu
        have hb' : SameBands l c x x' := by
          rw [u2, u3]
          exact ⟨hbt.M, hbt.ekMF, hbt.herm⟩
        have h := updateDensity_affine hp u1 hb'
        refine ⟨⟨h, hb'.herm, rfl, rfl⟩, ?_⟩
        change p'.mat2vec (updateDensity p' x').rho = p.mat2vec (updateDensity p x).rho
        rw [hp.mat2vec, h.rho]
  unfold solveSetup
  dsimp only
  cases mu0 with
  | some x =>
    have := key { s with mu := x } { s' with mu := l * x + c }
    cases M0 <;> exact this
  | none =>
    have hu := updateMu_affine hp hb N (some 0) (some 0)
    change Both _ (match updateMu p s N (some 0) with
      | .error e => Except.error e
      | .ok s => _) (match updateMu p' s' N (some 0) with
      | .error e => Except.error e
      | .ok s => _)
    cases h1 : updateMu p s N (some 0) with
    | error e =>
      cases h2 : updateMu p' s' N (some 0) with
      | error e' => rw [h1, h2] at hu; exact hu
      | ok x => rw [h1, h2] at hu; exact hu.elim
    | ok x =>
      cases h2 : updateMu p' s' N (some 0) with
      | error e' => rw [h1, h2] at hu; exact hu.elim
      | ok x' =>
        have := key x x'
        cases M0 <;> exact this

theorem runStrategy_same [Sub V] (hp : SameProblem l c p p')
    (hh : ∀ v k, (p.ek k + meanField p.U (p.vec2mat v)).IsHermitian) (N : Option ℝ) (st : Strategy V) :
    ∀ s s' : State m κ, Same l c p s s' →
      Both (fun x x' => Same l c p x.1 x'.1 ∧ x'.2 = x.2) (runStrategy p N st s) (runStrategy p' N st s') := by
  induction st with
  | ret x => intro s s' h; exact ⟨h, rfl⟩
  | eval x next ih =>
    intro s s' h
    have hd := densityStep_same hp h.units.mu hh x N
    unfold runStrategy
    cases h1 : densityStep p s x N with
    | error e =>
      cases h2 : densityStep p' s' x N with
      | error e' => rw [h1, h2] at hd; exact hd
      | ok y => rw [h1, h2] at hd; exact hd.elim
    | ok y =>
      cases h2 : densityStep p' s' x N with
      | error e' => rw [h1, h2] at hd; exact hd.elim
      | ok y' =>
        rw [h1, h2] at hd
        obtain ⟨t, w⟩ := y
        obtain ⟨t', w'⟩ := y'
        obtain ⟨d1, d2⟩ := hd
        dsimp only at d1 d2 ⊢
        rw [d2]
        exact ih _ t t' d1

/-- the end of both Newton drivers -/
theorem finish_same (hp : SameProblem l c p p') (hh : ∀ v k, (p.ek k + meanField p.U (p.vec2mat v)).IsHermitian)
    {s s' : State m κ} (h : Same l c p s s') (v : V) :
    Both (fun t t' => SameUnits l c t t' ∧
        t'.ekin = l * t.ekin + c * s.ntot ∧ t'.eint = l * t.eint ∧ t'.etot = l * t.etot + c * s.ntot ∧
        t'.omega0 = l * t.omega0 ∧ t'.omega = l * t.omega)
      (match densityStep p (updateTotalEnergy p s) v none with | .error e => Except.error e | .ok (s, _) => .ok s)
      (match densityStep p' (updateTotalEnergy p' s') v none with | .error e => Except.error e | .ok (s, _) => .ok s) := by
  obtain ⟨e1, e2⟩ := C126_hf_energy hp h.units h.herm h.rho h.ntot
  have hd := C126_hf_step hp e1.mu v (hh v) none
  exact ⟨hd.1, e2.ekin, e2.eint, e2.etot, e2.omega0, e2.omega⟩

variable [AddCommGroup V] [Module ℝ V]

theorem solveLoop_same (hp : SameProblem l c p p') (hh : ∀ v k, (p.ek k + meanField p.U (p.vec2mat v)).IsHermitian)
    (nrm : V → ℝ) (N mixing tol : ℝ) (fuel : ℕ) :
    ∀ (s s' : State m κ) (v : V) (hist : List V), Same l c p s s' →
      Both (fun x x' => Same l c p x.1 x'.1 ∧ x'.2 = x.2) (solveLoop p nrm N mixing tol fuel s v hist)
        (solveLoop p' nrm N mixing tol fuel s' v hist) := by
  induction fuel with
  | zero => intro s s' v hist h; exact ⟨h, rfl⟩
  | succ f ih =>
    intro s s' v hist h
    have hd := densityStep_same hp h.units.mu hh v (some N)
    unfold solveLoop
    dsimp only
    cases h1 : densityStep p s v (some N) with
    | error e =>
      cases h2 : densityStep p' s' v (some N) with
      | error e' => rw [h1, h2] at hd; exact hd
      | ok y => rw [h1, h2] at hd; exact hd.elim
    | ok y =>
      cases h2 : densityStep p' s' v (some N) with
      | error e' => rw [h1, h2] at hd; exact hd.elim
      | ok y' =>
        rw [h1, h2] at hd
        obtain ⟨t, w⟩ := y
        obtain ⟨t', w'⟩ := y'
        obtain ⟨d1, d2⟩ := hd
        dsimp only at d1 d2 ⊢
        rw [d2]
        split_ifs
        · exact ⟨d1, rfl⟩
        · exact ih t t' _ _ d1

/-- C126: `solve_iter` in another unit and with another zero of energy (start: mean field `l M0`, chemical potential
`l mu0 + c`) takes the same iterations with the same density matrices, fails with the same error, and ends in the corresponding
state with the corresponding energies. -/
theorem C126_hf_partial (hp : SameProblem l c p p') (hh : ∀ v k, (p.ek k + meanField p.U (p.vec2mat v)).IsHermitian)
    (nrm : V → ℝ) {s s' : State m κ} (hb : SameBands l c s s') {M0 : Option (Matrix (Fin m) (Fin m) ℂ)}
    (hh0 : ∀ k, (p.ek k + M0.getD 0).IsHermitian) (N : ℝ) (mu0 : Option ℝ) (nitermax : ℕ) (mixing tol : ℝ) :
    Both (fun x x' => SameUnits l c x.1 x'.1 ∧ SameEnergies l c x.1 x'.1 ∧ x'.2 = x.2)
      (solveIterState p nrm s N M0 mu0 nitermax mixing tol)
      (solveIterState p' nrm s' N (M0.map fun M => (l : ℂ) • M) (mu0.map fun x => l * x + c) nitermax mixing tol) := by
  unfold solveIterState
  by_cases c1 : ¬ 0 ≤ mixing
  · rw [if_pos c1, if_pos c1]; rfl
  · by_cases c2 : ¬ mixing ≤ 1
    · rw [if_neg c1, if_neg c1, if_pos c2, if_pos c2]; rfl
    rw [if_neg c1, if_neg c1, if_neg c2, if_neg c2]
    have hset := solveSetup_same hp hb hh0 N mu0
    cases h1 : solveSetup p s N M0 mu0 with
    | error e =>
      cases h2 : solveSetup p' s' N (M0.map fun M => (l : ℂ) • M) (mu0.map fun x => l * x + c) with
      | error e' => rw [h1, h2] at hset; exact hset
      | ok y => rw [h1, h2] at hset; exact hset.elim
    | ok y =>
      cases h2 : solveSetup p' s' N (M0.map fun M => (l : ℂ) • M) (mu0.map fun x => l * x + c) with
      | error e' => rw [h1, h2] at hset; exact hset.elim
      | ok y' =>
        rw [h1, h2] at hset
        obtain ⟨t, w⟩ := y
        obtain ⟨t', w'⟩ := y'
        obtain ⟨d1, d2⟩ := hset
        dsimp only at d1 d2 ⊢
        rw [d2]
        have hloop := solveLoop_same hp hh nrm N mixing tol nitermax t t' w [] d1
        cases h3 : solveLoop p nrm N mixing tol nitermax t w [] with
        | error e =>
          cases h4 : solveLoop p' nrm N mixing tol nitermax t' w [] with
          | error e' => rw [h3, h4] at hloop; exact hloop
          | ok z => rw [h3, h4] at hloop; exact hloop.elim
        | ok z =>
          cases h4 : solveLoop p' nrm N mixing tol nitermax t' w [] with
          | error e' => rw [h3, h4] at hloop; exact hloop.elim
          | ok z' =>
            rw [h3, h4] at hloop
            obtain ⟨u, hist⟩ := z
            obtain ⟨u', hist'⟩ := z'
            obtain ⟨l1, l2⟩ := hloop
            obtain ⟨e1, e2⟩ := C126_hf_energy hp l1.units l1.herm l1.rho l1.ntot
            exact ⟨e1, e2, l2⟩

/-- what the drivers with a Newton method leave behind; the energies belong to the density matrix before the last
evaluation, with number of particles `N0` -/
structure SameFinal {m : ℕ} {κ : Type*} (l c : ℝ) (s s' : State m κ) : Prop where
  units : SameUnits l c s s'
  eint : s'.eint = l * s.eint
  omega0 : s'.omega0 = l * s.omega0
  omega : s'.omega = l * s.omega
  total : ∃ N0, s'.ekin = l * s.ekin + c * N0 ∧ s'.etot = l * s.etot + c * N0

/-- C126: `solve_newton` and `solve_newton_mu`, with any root finder for the density matrix. -/
theorem C126_hf_newton_partial (hp : SameProblem l c p p')
    (hh : ∀ v k, (p.ek k + meanField p.U (p.vec2mat v)).IsHermitian) (fsolve : V → Strategy V) {s s' : State m κ}
    (hb : SameBands l c s s') {M0 : Option (Matrix (Fin m) (Fin m) ℂ)} (hh0 : ∀ k, (p.ek k + M0.getD 0).IsHermitian)
    (N mu : ℝ) (mu0 : Option ℝ) :
    Both (SameFinal l c) (solveNewton p fsolve s N M0 mu0)
        (solveNewton p' fsolve s' N (M0.map fun M => (l : ℂ) • M) (mu0.map fun x => l * x + c)) ∧
      Both (SameFinal l c) (solveNewtonMu p fsolve s mu M0)
        (solveNewtonMu p' fsolve s' (l * mu + c) (M0.map fun M => (l : ℂ) • M)) := by
  have hfin : ∀ (N : Option ℝ) (t t' : State m κ) (w : V), Same l c p t t' →
      Both (SameFinal l c)
        (match runStrategy p N (fsolve w) t with
          | .error e => Except.error e
          | .ok (s, v) => match densityStep p (updateTotalEnergy p s) v none with
            | .error e => Except.error e
            | .ok (s, _) => .ok s)
        (match runStrategy p' N (fsolve w) t' with
          | .error e => Except.error e
          | .ok (s, v) => match densityStep p' (updateTotalEnergy p' s) v none with
            | .error e => Except.error e
            | .ok (s, _) => .ok s) := by
    intro N t t' w d1
    have hrun := runStrategy_same hp hh N (fsolve w) t t' d1
    cases h3 : runStrategy p N (fsolve w) t with
    | error e =>
      cases h4 : runStrategy p' N (fsolve w) t' with
      | error e' => rw [h3, h4] at hrun; exact hrun
      | ok z => rw [h3, h4] at hrun; exact hrun.elim
    | ok z =>
      cases h4 : runStrategy p' N (fsolve w) t' with
      | error e' => rw [h3, h4] at hrun; exact hrun.elim
      | ok z' =>
        rw [h3, h4] at hrun
        obtain ⟨u, v⟩ := z
        obtain ⟨u', v'⟩ := z'
        obtain ⟨r1, r2⟩ := hrun
        dsimp only at r1 r2 ⊢
        rw [r2]
        have hfs := finish_same hp hh r1 v
        exact ⟨hfs.1, hfs.2.2.1, hfs.2.2.2.2.1, hfs.2.2.2.2.2, u.ntot, hfs.2.1, hfs.2.2.2.1⟩
  constructor
  · have hset := solveSetup_same hp hb hh0 N mu0
    unfold solveNewton
    cases h1 : solveSetup p s N M0 mu0 with
    | error e =>
      cases h2 : solveSetup p' s' N (M0.map fun M => (l : ℂ) • M) (mu0.map fun x => l * x + c) with
      | error e' => rw [h1, h2] at hset; exact hset
      | ok y => rw [h1, h2] at hset; exact hset.elim
    | ok y =>
      cases h2 : solveSetup p' s' N (M0.map fun M => (l : ℂ) • M) (mu0.map fun x => l * x + c) with
      | error e' => rw [h1, h2] at hset; exact hset.elim
      | ok y' =>
        rw [h1, h2] at hset
        obtain ⟨t, w⟩ := y
        obtain ⟨t', w'⟩ := y'
        obtain ⟨d1, d2⟩ := hset
        dsimp only at d1 d2 ⊢
        rw [d2]
        exact hfin (some N) t t' w d1
  · have hM0 : (M0.map fun M => (l : ℂ) • M).getD 0 = (l : ℂ) • M0.getD 0 := by
      cases M0 with
      | none => exact (smul_zero _).symm
      | some M => rfl
    have hform : ∀ (q : Params m κ V) (s : State m κ) (mu : ℝ) (Mo : Option (Matrix (Fin m) (Fin m) ℂ)),
        solveNewtonMu q fsolve s mu Mo
          = (match runStrategy q none (fsolve (q.mat2vec (updateDensity q (updateDispersion q { s with mu := mu, M := Mo.getD 0 })).rho))
                (updateDensity q (updateDispersion q { s with mu := mu, M := Mo.getD 0 })) with
            | .error e => Except.error e
            | .ok (s, v) => match densityStep q (updateTotalEnergy q s) v none with
              | .error e => Except.error e
              | .ok (s, _) => .ok s) := by
      intro q s mu Mo
      cases Mo <;> rfl
    rw [hform, hform]
    set t := updateDispersion p { s with mu := mu, M := M0.getD 0 } with ht
    set t' := updateDispersion p' { s' with mu := l * mu + c, M := (M0.map fun M => (l : ℂ) • M).getD 0 } with ht'
    have hbt : SameBands l c t t' := by
      refine ⟨hM0, ?_, hh0⟩
      change meanFieldDispersion p'.ek ((M0.map fun M => (l : ℂ) • M).getD 0) = _
      rw [hM0, dispersion_affine hp]
      rfl
    have h := updateDensity_affine hp (s := t) (s' := t') rfl hbt
    have hrho : p'.mat2vec (updateDensity p' t').rho = p.mat2vec (updateDensity p t).rho := by rw [hp.mat2vec, h.rho]
    rw [hrho]
    exact hfin none _ _ _ ⟨h, hbt.herm, rfl, rfl⟩

end Step

end Verif.Units
