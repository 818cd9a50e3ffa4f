import Verif.Basis.Response
import Verif.HartreeFock.SolverProps
import Verif.HfResponse.DFermi

/-!
# C104: change of basis for the Hartree-Fock solver
-/

set_option linter.unusedSectionVars false

noncomputable section

namespace Verif.Basis

open Matrix Verif.HartreeFock Verif.HfResponse

variable {m : ℕ} {S : Matrix (Fin m) (Fin m) ℂ}

/-! ## Functions of hermitian matrices -/

theorem trace_matFun {X : Matrix (Fin m) (Fin m) ℂ} {p : (Fin m → ℝ) × Matrix (Fin m) (Fin m) ℂ}
    (hp : Lindhard.Diag X p) (f : ℝ → ℂ) : (Lindhard.matFun p f).trace = ∑ i, f (p.1 i) := by
  rw [Lindhard.matFun, Matrix.trace_mul_comm, ← Matrix.mul_assoc, hp.1, Matrix.one_mul, Matrix.trace_diagonal]

theorem sum_eig (hS : Unitary S) {eig : Lindhard.Eig (Fin m)} (he : Lindhard.EigSpec eig) {X : Matrix (Fin m) (Fin m) ℂ}
    (hX : X.IsHermitian) (f : ℝ → ℂ) : ∑ i, f ((eig (rotG S X)).1 i) = ∑ i, f ((eig X).1 i) := by
  rw [← trace_matFun (he _ (rotG_hermitian hX)) f, Lindhard.matFun_unique (he _ (rotG_hermitian hX)) (diag_rot hS (he _ hX)),
    trace_matFun (diag_rot hS (he _ hX)) f]

theorem sum_eig_real (hS : Unitary S) {eig : Lindhard.Eig (Fin m)} (he : Lindhard.EigSpec eig)
    {X : Matrix (Fin m) (Fin m) ℂ} (hX : X.IsHermitian) (f : ℝ → ℝ) :
    ∑ i, f ((eig (rotG S X)).1 i) = ∑ i, f ((eig X).1 i) := by
  have h := sum_eig hS he hX fun x => (f x : ℂ)
  rw [← Complex.ofReal_sum, ← Complex.ofReal_sum] at h
  exact Complex.ofReal_injective h

theorem eig_range (hS : Unitary S) {eig : Lindhard.Eig (Fin m)} (he : Lindhard.EigSpec eig)
    {X : Matrix (Fin m) (Fin m) ℂ} (hX : X.IsHermitian) (x : ℝ) :
    (∃ i, (eig (rotG S X)).1 i = x) ↔ ∃ i, (eig X).1 i = x := by
  classical
  have h := sum_eig_real hS he hX fun y => if y = x then (1 : ℝ) else 0
  have key : ∀ e : Fin m → ℝ, (∃ i, e i = x) ↔ 0 < ∑ i, if e i = x then (1 : ℝ) else 0 := by
    intro e
    constructor
    · rintro ⟨i, hi⟩
      refine Finset.sum_pos' (fun j _ => by split_ifs <;> norm_num) ⟨i, Finset.mem_univ i, by simp [hi]⟩
    · intro hpos
      by_contra hno
      push Not at hno
      rw [Finset.sum_eq_zero fun i _ => if_neg (hno i)] at hpos
      exact lt_irrefl _ hpos
  rw [key, key, h]

/-! ## One step -/

theorem meanField_rot (hS : Unitary S) (U : Operators.T4 m) (rho : Matrix (Fin m) (Fin m) ℂ) :
    meanField (rotChi S U) (rotG S rho) = rotG S (meanField U rho) := by
  have h1 := contract_rot (cj S) S (cj S) S S (cj S) hS.cjT hS.tcj U rho
  have h2 : ∀ (T : Operators.T4 m) (r : Matrix (Fin m) (Fin m) ℂ), meanField T r = (-1 : ℂ) • fun b a => contract T r a b := by
    intro T r
    funext b a
    simp only [meanField, contract, Pi.smul_apply, smul_eq_mul, Finset.mul_sum, neg_mul, one_mul]
  rw [h2, h2]
  have h3 : rotG S ((-1 : ℂ) • fun b a => contract U rho a b) = (-1 : ℂ) • rot2 S (cj S) fun b a => contract U rho a b :=
    rot2_smul _ _ _ _
  rw [h3, ← rot2_transpose, ← h1]
  rfl

/-- the same calculation in the rotated basis -/
def rotHf {κ V : Type*} (S : Matrix (Fin m) (Fin m) ℂ) (p : Params m κ V) : Params m κ V :=
  { p with
    ek := fun k => rotG S (p.ek k)
    U := rotChi S p.U }

/-- the states of the two calculations correspond to each other -/
structure SameState {κ : Type*} (S : Matrix (Fin m) (Fin m) ℂ) (s s' : State m κ) : Prop where
  mu : s'.mu = s.mu
  M : s'.M = rotG S s.M
  ekMF : s'.ekMF = fun k => rotG S (s.ekMF k)
  rhok : s'.rhok = fun k => rotG S (s.rhok k)
  rho : s'.rho = rotG S s.rho
  ntot : s'.ntot = s.ntot

variable {κ V : Type*} [Fintype κ] [Nonempty κ] [NeZero m] {p : Params m κ V}

theorem target_same (hS : Unitary S) (he : Lindhard.EigSpec p.eigv) {s s' : State m κ}
    (hek : s'.ekMF = fun k => rotG S (s.ekMF k)) (hh : ∀ k, (s.ekMF k).IsHermitian) (N : ℝ) :
    targetFunction (rotHf S p) s' N = targetFunction p s N := by
  funext mu
  unfold targetFunction
  rw [hek]
  have : ∀ k, ∑ b, fermi p.beta ((p.eigv (rotG S (s.ekMF k))).1 b - mu) = ∑ b, fermi p.beta ((p.eigv (s.ekMF k)).1 b - mu) :=
    fun k => sum_eig_real hS he (hh k) fun x => fermi p.beta (x - mu)
  simp only [rotHf, this]

theorem eMin_same (hS : Unitary S) (he : Lindhard.EigSpec p.eigv) {s s' : State m κ}
    (hek : s'.ekMF = fun k => rotG S (s.ekMF k)) (hh : ∀ k, (s.ekMF k).IsHermitian) :
    eMin (rotHf S p) s' = eMin p s := by
  unfold eMin
  rw [hek]
  apply le_antisymm
  · refine Finset.le_inf' _ _ fun x _ => ?_
    obtain ⟨i, hi⟩ := (eig_range hS he (hh x.1) ((p.eigv (s.ekMF x.1)).1 x.2)).mpr ⟨x.2, rfl⟩
    rw [← hi]
    exact Finset.inf'_le (fun x : κ × Fin m => ((rotHf S p).eigv (rotG S (s.ekMF x.1))).1 x.2) (Finset.mem_univ (x.1, i))
  · refine Finset.le_inf' _ _ fun x _ => ?_
    obtain ⟨i, hi⟩ := (eig_range hS he (hh x.1) ((p.eigv (rotG S (s.ekMF x.1))).1 x.2)).mp ⟨x.2, rfl⟩
    change _ ≤ (p.eigv (rotG S (s.ekMF x.1))).1 x.2
    rw [← hi]
    exact Finset.inf'_le (fun x : κ × Fin m => (p.eigv (s.ekMF x.1)).1 x.2) (Finset.mem_univ (x.1, i))

theorem eMax_same (hS : Unitary S) (he : Lindhard.EigSpec p.eigv) {s s' : State m κ}
    (hek : s'.ekMF = fun k => rotG S (s.ekMF k)) (hh : ∀ k, (s.ekMF k).IsHermitian) :
    eMax (rotHf S p) s' = eMax p s := by
  unfold eMax
  rw [hek]
  apply le_antisymm
  · refine Finset.sup'_le _ _ fun x _ => ?_
    obtain ⟨i, hi⟩ := (eig_range hS he (hh x.1) ((p.eigv (rotG S (s.ekMF x.1))).1 x.2)).mp ⟨x.2, rfl⟩
    change (p.eigv (rotG S (s.ekMF x.1))).1 x.2 ≤ _
    rw [← hi]
    exact Finset.le_sup' (fun x : κ × Fin m => (p.eigv (s.ekMF x.1)).1 x.2) (Finset.mem_univ (x.1, i))
  · refine Finset.sup'_le _ _ fun x _ => ?_
    obtain ⟨i, hi⟩ := (eig_range hS he (hh x.1) ((p.eigv (s.ekMF x.1)).1 x.2)).mpr ⟨x.2, rfl⟩
    rw [← hi]
    exact Finset.le_sup' (fun x : κ × Fin m => ((rotHf S p).eigv (rotG S (s.ekMF x.1))).1 x.2) (Finset.mem_univ (x.1, i))

theorem momentumDensity_rot (hS : Unitary S) {eig : Lindhard.Eig (Fin m)} (he : Lindhard.EigSpec eig) (beta mu : ℝ)
    (h : κ → Matrix (Fin m) (Fin m) ℂ) (hh : ∀ k, (h k).IsHermitian) :
    momentumDensity beta mu (fun k => (eig (rotG S (h k))).1) (fun k => (eig (rotG S (h k))).2)
      = fun k => rotG S (momentumDensity beta mu (fun k => (eig (h k)).1) (fun k => (eig (h k)).2) k) := by
  rw [momentumDensity_eq beta mu he (fun k => rotG S (h k)) fun k => rotG_hermitian (hh k),
    momentumDensity_eq beta mu he h hh]
  funext k
  rw [rotG_sub_one hS, rotG_eq, fermiMatrix_conj beta S Sᴴ _ hS.right hS.left, rotG_eq]

theorem density_rot (rhok : κ → Matrix (Fin m) (Fin m) ℂ) : density (fun k => rotG S (rhok k)) = rotG S (density rhok) := by
  have h : ∀ r : κ → Matrix (Fin m) (Fin m) ℂ, density r = (Fintype.card κ : ℂ)⁻¹ • ∑ k, r k := by
    intro r
    ext a b
    rw [Matrix.smul_apply, Matrix.sum_apply, smul_eq_mul, density, div_eq_inv_mul]
  rw [h, h, rotG_eq, Matrix.mul_smul, Matrix.smul_mul, Matrix.mul_sum, Matrix.sum_mul]
  simp only [rotG_eq]

theorem trace_rotG (hS : Unitary S) (X : Matrix (Fin m) (Fin m) ℂ) : (rotG S X).trace = X.trace := by
  rw [rotG_eq, Matrix.trace_mul_comm, ← Matrix.mul_assoc, hS.left, Matrix.one_mul]

theorem updateDensity_same (hS : Unitary S) (he : Lindhard.EigSpec p.eig) {s s' : State m κ} (hmu : s'.mu = s.mu)
    (hM : s'.M = rotG S s.M) (hek : s'.ekMF = fun k => rotG S (s.ekMF k)) (hh : ∀ k, (s.ekMF k).IsHermitian) :
    SameState S (updateDensity p s) (updateDensity (rotHf S p) s') := by
  have h1 : (updateDensity (rotHf S p) s').rhok = fun k => rotG S ((updateDensity p s).rhok k) := by
    change momentumDensity p.beta s'.mu (fun k => (p.eig (s'.ekMF k)).1) (fun k => (p.eig (s'.ekMF k)).2) = _
    rw [hmu, hek]
    exact momentumDensity_rot hS he p.beta s.mu s.ekMF hh
  have h2 : (updateDensity (rotHf S p) s').rho = rotG S (updateDensity p s).rho := by
    change density (updateDensity (rotHf S p) s').rhok = _
    rw [h1, density_rot]
    rfl
  refine ⟨hmu, hM, hek, h1, h2, ?_⟩
  change Matrix.trace (updateDensity (rotHf S p) s').rho = Matrix.trace (updateDensity p s).rho
  rw [h2, trace_rotG hS]

theorem updateMu_eq (q : Params m κ V) (t : State m κ) (N : ℝ) (x : Option ℝ) :
    updateMu q t N x = (q.brentq (targetFunction q t N) (q.muMin.getD (eMin q t)) (q.muMax.getD (eMax q t))).map
      fun mu => { t with mu := mu } := by
  unfold updateMu
  dsimp only
  cases q.muMin <;> cases q.muMax <;> dsimp only [Option.getD] <;> split <;> rename_i h <;> rw [h] <;> rfl

/-- C104: a step of the Hartree-Fock solver (at fixed density, or at fixed chemical potential) started from the rotated
density matrix does the same as in the original basis: same chemical potential or same error, and rotated mean field,
band structure and density matrices. -/
theorem C104_hartree_fock (hS : Unitary S) (he : Lindhard.EigSpec p.eig) (hev : Lindhard.EigSpec p.eigv)
    (s s' : State m κ) (hmu : s'.mu = s.mu) (v v' : V) (hv : p.vec2mat v' = rotG S (p.vec2mat v))
    (hh : ∀ k, (p.ek k + meanField p.U (p.vec2mat v)).IsHermitian) (N : Option ℝ) :
    match densityStep p s v N, densityStep (rotHf S p) s' v' N with
    | .ok (t, w), .ok (t', w') => SameState S t t' ∧ w = p.mat2vec t.rho ∧ w' = p.mat2vec t'.rho
    | .error e, .error e' => e = e'
    | _, _ => False := by
  unfold densityStep
  dsimp only
  set t := updateDispersion p (updateMeanField p s (p.vec2mat v)) with ht
  set t' := updateDispersion (rotHf S p) (updateMeanField (rotHf S p) s' ((rotHf S p).vec2mat v')) with ht'
  have hM : t'.M = rotG S t.M := by
    change meanField (rotChi S p.U) (p.vec2mat v') = rotG S (meanField p.U (p.vec2mat v))
    rw [hv, meanField_rot hS]
  have hek : t'.ekMF = fun k => rotG S (t.ekMF k) := by
    funext k
    change rotG S (p.ek k) + t'.M = rotG S (p.ek k + t.M)
    rw [hM, rotG_add]
  have hhk : ∀ k, (t.ekMF k).IsHermitian := hh
  have hm : t'.mu = t.mu := hmu
  cases N with
  | none => exact ⟨updateDensity_same hS he hm hM hek hhk, rfl, rfl⟩
  | some N =>
    have hu' : updateMu (rotHf S p) t' N (some t'.mu) = (p.brentq (targetFunction p t N) (p.muMin.getD (eMin p t))
        (p.muMax.getD (eMax p t))).map fun mu => { t' with mu := mu } := by
      rw [updateMu_eq, target_same hS hev hek hhk, eMin_same hS hev hek hhk, eMax_same hS hev hek hhk]
      rfl
    simp only [updateMu_eq p t, hu']
    cases p.brentq (targetFunction p t N) (p.muMin.getD (eMin p t)) (p.muMax.getD (eMax p t)) with
    | error e => rfl
    | ok mu =>
      exact ⟨updateDensity_same (s := { t with mu := mu }) (s' := { t' with mu := mu }) hS he rfl hM hek hhk, rfl, rfl⟩

/-- C104: the energies and the thermodynamic potentials of corresponding states are equal. -/
theorem C104_hartree_fock_energy (hS : Unitary S) (he : Lindhard.EigSpec p.eig) (hev : Lindhard.EigSpec p.eigv)
    {s s' : State m κ} (h : SameState S s s') (hh : ∀ k, (s.ekMF k).IsHermitian) :
    let t := updateTotalEnergy p s
    let t' := updateTotalEnergy (rotHf S p) s'
    SameState S t t' ∧ t'.ekin = t.ekin ∧ t'.eint = t.eint ∧ t'.etot = t.etot ∧ t'.omega0 = t.omega0 ∧
      t'.omega = t.omega := by
  intro t t'
  have hk : t'.rhok = fun k => rotG S (t.rhok k) := by
    change momentumDensity p.beta s'.mu (fun k => (p.eig (s'.ekMF k)).1) (fun k => (p.eig (s'.ekMF k)).2) = _
    rw [h.mu, h.ekMF]
    exact momentumDensity_rot hS he p.beta s.mu s.ekMF hh
  have hkin : t'.ekin = t.ekin := by
    change eKin (fun k => rotG S (p.ek k)) t'.rhok = eKin p.ek t.rhok
    rw [hk]
    have h1 : ∀ x y : κ → Matrix (Fin m) (Fin m) ℂ, eKin x y = (∑ k, (x k * y k).trace) / (Fintype.card κ : ℂ) := by
      intro x y
      simp only [eKin, Matrix.trace, Matrix.diag_apply, Matrix.mul_apply]
    rw [h1, h1]
    congr 1
    refine Finset.sum_congr rfl fun k _ => ?_
    rw [← trace_rotG hS (p.ek k * t.rhok k)]
    congr 1
    simp only [rotG_eq]
    calc S * p.ek k * Sᴴ * (S * t.rhok k * Sᴴ) = S * p.ek k * (Sᴴ * S) * t.rhok k * Sᴴ := by simp only [Matrix.mul_assoc]
      _ = _ := by rw [hS.left, Matrix.mul_one]; simp only [Matrix.mul_assoc]
  have hint : t'.eint = t.eint := by
    change eInt (rotChi S p.U) s'.rho = eInt p.U s.rho
    rw [h.rho]
    have h1 : ∀ (T : Operators.T4 m) (r : Matrix (Fin m) (Fin m) ℂ), eInt T r
        = 1 / 2 * (vec r ⬝ᵥ (Rpa.pairMat T).mulVec (vec r)) := by
      intro T r
      simp only [eInt, dotProduct, Matrix.mulVec, Fintype.sum_prod_type, vec, Rpa.pairMat, Finset.mul_sum]
      exact Finset.sum_congr rfl fun _ _ => Finset.sum_congr rfl fun _ _ => Finset.sum_congr rfl fun _ _ =>
        Finset.sum_congr rfl fun _ _ => by ring
    have h2 : vec (rotG S s.rho) = (kr S (cj S)).mulVec (vec s.rho) := vec_rot2 S (cj S) s.rho
    rw [h1, h1, pairMat_rotChi, h2]
    congr 1
    rw [Matrix.dotProduct_mulVec, ← Matrix.vecMul_transpose, Matrix.vecMul_vecMul, ← Matrix.dotProduct_mulVec,
      Matrix.vecMul_transpose, Matrix.mulVec_mulVec, ← Matrix.mul_assoc, ← Matrix.mul_assoc, pair_cancel2 hS, Matrix.one_mul, Matrix.mul_assoc,
      pair_cancel1 hS, Matrix.mul_one]
  have hom : t'.omega0 = t.omega0 := by
    change omega0 p.beta s'.mu (fun k => (p.eigv (s'.ekMF k)).1) = omega0 p.beta s.mu fun k => (p.eigv (s.ekMF k)).1
    rw [h.mu, h.ekMF]
    unfold omega0
    congr 2
    exact Finset.sum_congr rfl fun k _ => sum_eig_real hS hev (hh k) fun x => Real.log (1 + Real.exp (-p.beta * (x - s.mu)))
  refine ⟨⟨h.mu, h.M, h.ekMF, hk, h.rho, h.ntot⟩, hkin, hint, ?_, hom, ?_⟩
  · change t'.ekin + t'.eint = t.ekin + t.eint
    rw [hkin, hint]
  · change (t'.omega0 : ℂ) + t'.eint = (t.omega0 : ℂ) + t.eint
    rw [hom, hint]

end Verif.Basis
