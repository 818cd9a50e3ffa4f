import Verif.Basis.Hf
import Verif.HartreeFock.SolverState

/-!
# C117: lattice symmetries in the Hartree-Fock and Hartree solvers

`φ` permutes the momenta, `S` acts on the orbitals. If the dispersion, the interaction and the starting mean field are
symmetric then `solve_iter` never leaves the symmetric states: a symmetry can only be broken by the start.
-/

noncomputable section

namespace Verif.PointGroup

open Verif.HartreeFock Verif.Basis Verif.HfResponse Matrix

set_option linter.unusedSectionVars false

variable {m : ℕ} {κ V : Type*} [Fintype κ] [Nonempty κ] [NeZero m] {p : Params m κ V} {φ : κ ≃ κ}
  {S : Matrix (Fin m) (Fin m) ℂ}

/-- symmetric data of the Hartree-Fock problem -/
structure SymHf (φ : κ ≃ κ) (S : Matrix (Fin m) (Fin m) ℂ) (p : Params m κ V) : Prop where
  unitary : Unitary S
  ek : ∀ k, p.ek (φ k) = rotG S (p.ek k)
  U : rotChi S p.U = p.U

/-- symmetric state of the solver -/
structure SymHfState (φ : κ ≃ κ) (S : Matrix (Fin m) (Fin m) ℂ) (s : State m κ) : Prop where
  M : rotG S s.M = s.M
  ekMF : ∀ k, s.ekMF (φ k) = rotG S (s.ekMF k)
  rhok : ∀ k, s.rhok (φ k) = rotG S (s.rhok k)
  rho : rotG S s.rho = s.rho
  herm : ∀ k, (s.ekMF k).IsHermitian

theorem sum_sym {x : κ → Matrix (Fin m) (Fin m) ℂ} (h : ∀ k, x (φ k) = rotG S (x k)) :
    rotG S ((Fintype.card κ : ℂ)⁻¹ • ∑ k, x k) = (Fintype.card κ : ℂ)⁻¹ • ∑ k, x k := by
  conv_rhs => rw [← Equiv.sum_comp φ x]
  simp only [h, rotG_eq]
  rw [Matrix.mul_smul, Matrix.smul_mul, Matrix.mul_sum, Matrix.sum_mul]

theorem density_herm {x : κ → Matrix (Fin m) (Fin m) ℂ} (h : ∀ k, (x k).IsHermitian) :
    ((Fintype.card κ : ℂ)⁻¹ • ∑ k, x k).IsHermitian := by
  unfold Matrix.IsHermitian
  rw [conjTranspose_smul, conjTranspose_sum]
  congr 1
  · simp
  · exact Finset.sum_congr rfl fun k _ => h k

theorem shift_herm {x : Matrix (Fin m) (Fin m) ℂ} (h : x.IsHermitian) (mu : ℝ) : (x - (mu : ℂ) • 1).IsHermitian := by
  unfold Matrix.IsHermitian
  rw [conjTranspose_sub, h.eq, conjTranspose_smul, conjTranspose_one]
  simp

/-- the density matrices of symmetric bands are symmetric and hermitian -/
theorem updateDensity_sym (hs : Unitary S) (hE : Lindhard.EigSpec p.eig) {s : State m κ} (hM : rotG S s.M = s.M)
    (hh : ∀ k, (s.ekMF k).IsHermitian) (hek : ∀ k, s.ekMF (φ k) = rotG S (s.ekMF k)) :
    SymHfState φ S (updateDensity p s) ∧ (updateDensity p s).rho.IsHermitian := by
  have h1 : ∀ k, (updateDensity p s).rhok k = fermiMatrix p.beta (s.ekMF k - (s.mu : ℂ) • 1) := updateDensity_rhok p hE s hh
  have h2 : ∀ k, (updateDensity p s).rhok (φ k) = rotG S ((updateDensity p s).rhok k) := by
    intro k
    rw [h1, h1, hek, rotG_sub_one hs, rotG_eq, fermiMatrix_conj p.beta S Sᴴ _ hs.right hs.left, rotG_eq]
  have h3 : (updateDensity p s).rho = (Fintype.card κ : ℂ)⁻¹ • ∑ k, (updateDensity p s).rhok k := density_smul _
  refine ⟨⟨hM, hek, h2, ?_, hh⟩, ?_⟩
  · rw [h3]
    exact sum_sym h2
  · rw [h3]
    refine density_herm fun k => ?_
    rw [h1]
    unfold Matrix.IsHermitian
    rw [← fermiMatrix_conjTranspose, (shift_herm (hh k) s.mu).eq]

/-- the vector the solver works with stands for a symmetric density matrix -/
def SymVec (S : Matrix (Fin m) (Fin m) ℂ) (p : Params m κ V) (v : V) : Prop := rotG S (p.vec2mat v) = p.vec2mat v

/-- the conversion to a vector and back keeps the symmetry; true for the full density matrix
(`symRound_full`), and for its diagonal if `S` permutes the orbitals and multiplies with phases (`symRound_diagonal`) -/
def SymRound (S : Matrix (Fin m) (Fin m) ℂ) (p : Params m κ V) : Prop :=
  ∀ rho : Matrix (Fin m) (Fin m) ℂ, rho.IsHermitian → rotG S rho = rho → SymVec S p (p.mat2vec rho)

theorem symRound_full (h : ∀ rho : Matrix (Fin m) (Fin m) ℂ, rho.IsHermitian → p.vec2mat (p.mat2vec rho) = rho) :
    SymRound S p := by
  intro rho h1 h2
  unfold SymVec
  rw [h rho h1, h2]

/-- C117: one step keeps the symmetry. -/
theorem C117_hf_step (hp : SymHf φ S p) (hE : Lindhard.EigSpec p.eig) (hr : SymRound S p)
    (hh : ∀ v k, (p.ek k + meanField p.U (p.vec2mat v)).IsHermitian) {s s' : State m κ} {v new : V} (hv : SymVec S p v)
    {N : Option ℝ} (h : densityStep p s v N = .ok (s', new)) : SymHfState φ S s' ∧ SymVec S p new := by
  obtain ⟨h1, h2, -⟩ := densityStep_spec p hE hh s s' v new N h
  have hM : rotG S s'.M = s'.M := by
    rw [h1.mean]
    conv_rhs => rw [← hp.U, ← hv]
    exact (meanField_rot hp.unitary p.U (p.vec2mat v)).symm
  have hek : ∀ k, s'.ekMF (φ k) = rotG S (s'.ekMF k) := by
    intro k
    rw [h1.bands, h1.bands, hp.ek, rotG_add, hM]
  have hherm : ∀ k, (s'.ekMF k).IsHermitian := fun k => by rw [h1.bands, h1.mean]; exact hh v k
  have hk : ∀ k, s'.rhok (φ k) = rotG S (s'.rhok k) := by
    intro k
    rw [h1.rhok, h1.rhok, hek, rotG_sub_one hp.unitary, rotG_eq,
      fermiMatrix_conj p.beta S Sᴴ _ hp.unitary.right hp.unitary.left, rotG_eq]
  have hrho : rotG S s'.rho = s'.rho := by
    rw [h1.rho]
    exact sum_sym hk
  refine ⟨⟨hM, hek, hk, hrho, hherm⟩, ?_⟩
  rw [h2]
  refine hr _ ?_ hrho
  rw [h1.rho]
  refine density_herm fun k => ?_
  rw [h1.rhok]
  unfold Matrix.IsHermitian
  rw [← fermiMatrix_conjTranspose, (shift_herm (hherm k) s'.mu).eq]

/-- C117: the starting point of `solve_setup` with a symmetric (default: zero) mean field is symmetric. -/
theorem C117_hf_setup (hp : SymHf φ S p) (hE : Lindhard.EigSpec p.eig) (hr : SymRound S p)
    {M0 : Option (Matrix (Fin m) (Fin m) ℂ)} (hM0 : ∀ M ∈ M0, rotG S M = M) (hh : ∀ k, (p.ek k + M0.getD 0).IsHermitian)
    {s s' : State m κ} {v : V} {N : ℝ} {mu0 : Option ℝ} (h : solveSetup p s N M0 mu0 = .ok (s', v)) :
    SymHfState φ S s' ∧ SymVec S p v := by
  have hz : rotG S (M0.getD 0) = M0.getD 0 := by
    cases M0 with
    | none =>
      show rotG S 0 = 0
      rw [rotG_eq, Matrix.mul_zero, Matrix.zero_mul]
    | some M => exact hM0 M rfl
  have key : ∀ s1 s2 : State m κ, updateMu p (updateDispersion p { s1 with M := M0.getD 0 }) N none = .ok s2 →
      SymHfState φ S (updateDensity p s2) ∧ SymVec S p (p.mat2vec (updateDensity p s2).rho) := by
    intro s1 s2 h2
    have h3 := updateMu_ok p _ _ _ _ h2
    have e1 : s2.M = M0.getD 0 := by rw [h3]; rfl
    have e2 : ∀ k, s2.ekMF k = p.ek k + M0.getD 0 := by intro k; rw [h3]; rfl
    obtain ⟨h4, h5⟩ := updateDensity_sym (φ := φ) (p := p) (s := s2) hp.unitary hE (by rw [e1, hz])
      (fun k => by rw [e2]; exact hh k) fun k => by rw [e2, e2, hp.ek, rotG_add, hz]
    exact ⟨h4, hr _ h5 h4.rho⟩
  unfold solveSetup at h
  split at h
  · cases h
  · rename_i s1 _
    dsimp only at h
    split at h
    · cases h
    · rename_i s2 h2
      replace h2 : updateMu p (updateDispersion p { s1 with M := M0.getD 0 }) N none = .ok s2 := by
        rw [← h2]
        cases M0 <;> rfl
      obtain ⟨e1, e2⟩ := Prod.mk.inj (Except.ok.inj h)
      rw [← e1, ← e2]
      exact key s1 s2 h2

variable [AddCommGroup V] [Module ℝ V]

theorem solveLoop_sym (hp : SymHf φ S p) (hE : Lindhard.EigSpec p.eig) (hr : SymRound S p)
    (hh : ∀ v k, (p.ek k + meanField p.U (p.vec2mat v)).IsHermitian) {L : V →ₗ[ℝ] Matrix (Fin m) (Fin m) ℂ}
    (hL : p.vec2mat = L) (nrm : V → ℝ) (N mixing tol : ℝ) (fuel : ℕ) :
    ∀ (s : State m κ) (v : V) (hist : List V), SymHfState φ S s → SymVec S p v → (∀ x ∈ hist, SymVec S p x) →
      ∀ s' hist', solveLoop p nrm N mixing tol fuel s v hist = .ok (s', hist') →
        SymHfState φ S s' ∧ ∀ x ∈ hist', SymVec S p x := by
  induction fuel with
  | zero =>
    intro s v hist h1 _ h3 s' hist' h
    rw [solveLoop] at h
    obtain ⟨e1, e2⟩ := Prod.mk.inj (Except.ok.inj h)
    rw [← e1, ← e2]
    exact ⟨h1, h3⟩
  | succ f ih =>
    intro s v hist _ h2 h3 s' hist' h
    have h4 : ∀ x ∈ hist ++ [v], SymVec S p x := by
      intro x hx
      rcases List.mem_append.1 hx with hx | hx
      · exact h3 x hx
      · rw [List.mem_singleton.1 hx]; exact h2
    rw [solveLoop] at h
    cases hd : densityStep p s v (some N) with
    | error e => rw [hd] at h; cases h
    | ok x =>
      obtain ⟨s1, new⟩ := x
      obtain ⟨h5, h6⟩ := C117_hf_step (φ := φ) hp hE hr hh h2 hd
      rw [hd] at h
      dsimp only at h
      split_ifs at h with hc
      · obtain ⟨e1, e2⟩ := Prod.mk.inj (Except.ok.inj h)
        rw [← e1, ← e2]
        exact ⟨h5, h4⟩
      · refine ih s1 _ _ h5 ?_ h4 s' hist' h
        unfold SymVec at h2 h6 ⊢
        rw [hL] at h2 h6 ⊢
        have hreal : ∀ (c : ℝ) (X : Matrix (Fin m) (Fin m) ℂ), rotG S (c • X) = c • (rotG S X : Matrix (Fin m) (Fin m) ℂ) := by
          intro c X
          rw [rotG_eq, rotG_eq, Matrix.mul_smul, Matrix.smul_mul]
        rw [map_add, map_smul, map_smul, rotG_add, hreal, hreal, h2, h6]

/-- C117: `solve_iter` of the Hartree-Fock solver, and of the Hartree solver, started with a symmetric mean field (the default
is zero) ends in a symmetric state and passes only symmetric density matrices. -/
theorem C117_hf (hp : SymHf φ S p) (hE : Lindhard.EigSpec p.eig) (hr : SymRound S p)
    (hh : ∀ v k, (p.ek k + meanField p.U (p.vec2mat v)).IsHermitian) {L : V →ₗ[ℝ] Matrix (Fin m) (Fin m) ℂ}
    (hL : p.vec2mat = L) (nrm : V → ℝ) {s s' : State m κ} {N mixing tol : ℝ} {M0 : Option (Matrix (Fin m) (Fin m) ℂ)}
    (hM0 : ∀ M ∈ M0, rotG S M = M) (hh0 : ∀ k, (p.ek k + M0.getD 0).IsHermitian) {mu0 : Option ℝ} {nitermax : ℕ} {hist : List V}
    (h : solveIterState p nrm s N M0 mu0 nitermax mixing tol = .ok (s', hist)) :
    SymHfState φ S s' ∧ ∀ x ∈ hist, SymVec S p x := by
  unfold solveIterState at h
  split_ifs at h
  cases hs : solveSetup p s N M0 mu0 with
  | error e => rw [hs] at h; cases h
  | ok x =>
    obtain ⟨s0, v0⟩ := x
    obtain ⟨h1, h2⟩ := C117_hf_setup (φ := φ) hp hE hr hM0 hh0 hs
    rw [hs] at h
    dsimp only at h
    cases hl : solveLoop p nrm N mixing tol nitermax s0 v0 [] with
    | error e => rw [hl] at h; cases h
    | ok y =>
      obtain ⟨s1, hist1⟩ := y
      obtain ⟨h3, h4⟩ := solveLoop_sym (φ := φ) hp hE hr hh hL nrm N mixing tol nitermax s0 v0 [] h1 h2 (by simp) s1 hist1 hl
      rw [hl] at h
      obtain ⟨e1, e2⟩ := Prod.mk.inj (Except.ok.inj h)
      rw [← e1, ← e2]
      exact ⟨⟨h3.M, h3.ekMF, (updateDensity_sym hp.unitary hE h3.M h3.herm h3.ekMF).1.rhok, h3.rho, h3.herm⟩, h4⟩

end Verif.PointGroup
