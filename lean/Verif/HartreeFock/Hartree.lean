import Verif.HartreeFock.SolverState
import Verif.HfResponse.Violations
import Verif.HfResponse.DFermi

/-!
# C114: `HartreeSolver`

`HartreeSolver` (hf_solver.py:525-560) is `HartreeFockSolver` with another vectorisation: only the diagonal of the density
matrix is iterated.  All other methods, in particular the energies, are inherited.
-/

noncomputable section

namespace Verif.HartreeFock

open Matrix Verif.HfResponse

set_option linter.unusedSectionVars false

variable {n : ℕ} {κ : Type*} {V : Type*}

/-- The parameters of a `HartreeSolver` with the same constructor arguments: `mat2vec` and `vec2mat` are replaced
(hf_solver.py:553-560). -/
def hartree (p : Params n κ V) : Params n κ (Fin n → ℝ) :=
  { beta := p.beta, muMin := p.muMin, muMax := p.muMax, ek := p.ek, U := p.U, mat2vec := fun m i => (m i i).re,
    vec2mat := fun v => diagonal fun i => (v i : ℂ), eigv := p.eigv, eig := p.eig, brentq := p.brentq }

/-! ## Specification -/

section
open Verif.Operators

variable {ι : Type} [LinearOrder ι]

/-- every two body term of the operator leaves all occupations unchanged -/
def DensityDensity (fs : List ι) (x : Op ι) : Prop :=
  ∀ i j k l, x (K4 fs i j k l) ≠ 0 → k = j ∧ l = i ∨ k = i ∧ l = j

/-- the coefficient of `n_a n_c` (`a ≠ c`) in such an operator, whatever the order in which the factors are stored -/
def coupling (fs : List ι) (x : Op ι) (a c : Fin fs.length) : ℂ :=
  x (K4 fs a c c a) + x (K4 fs c a a c) - x (K4 fs a c a c) - x (K4 fs c a c a)

theorem coupling_self (fs : List ι) (x : Op ι) (a : Fin fs.length) : coupling fs x a a = 0 := by
  unfold coupling
  ring

theorem coupling_symm (fs : List ι) (x : Op ι) (a c : Fin fs.length) : coupling fs x a c = coupling fs x c a := by
  unfold coupling
  ring

/-- the interaction tensor of a density-density interaction -/
theorem densityDensity_tensor (fs : List ι) (hnd : fs.Nodup) (x : Op ι) (hx : Canonical x) (ts : List (Mono ι × ℂ))
    (hts : Enumerates ts x) (U : T4 fs.length) (hU : getRpaTensor fs ts = .ok U) (hdd : DensityDensity fs x)
    (a b c d : Fin fs.length) :
    U a b c d = (if a = d ∧ c = b then coupling fs x a c else 0) - if a = b ∧ c = d then coupling fs x a c else 0 := by
  unfold getRpaTensor at hU
  cases hq : quarticTensorFromOperator fs false ts with
  | error err => rw [hq] at hU; cases hU
  | ok W =>
    rw [hq] at hU
    obtain rfl := Except.ok.inj hU
    have hW : ∀ i j k l, W i j k l = x (K4 fs i j k l) := by
      intro i j k l
      rw [quarticTensor_of_ok false fs hnd x hx ts hts W hq]
      rfl
    simp only [permSym_eq, hW]
    by_cases h1 : a = d ∧ c = b
    · obtain ⟨rfl, rfl⟩ := h1
      by_cases h2 : a = c
      · subst h2
        simp
      · rw [if_pos ⟨rfl, rfl⟩, if_neg (by tauto)]
        unfold coupling
        ring
    · by_cases h2 : a = b ∧ c = d
      · obtain ⟨rfl, rfl⟩ := h2
        rw [if_neg h1, if_pos ⟨rfl, rfl⟩]
        unfold coupling
        ring
      · rw [if_neg h1, if_neg h2]
        have z : ∀ i j k l, ¬ (k = j ∧ l = i ∨ k = i ∧ l = j) → x (K4 fs i j k l) = 0 := by
          intro i j k l h
          by_contra hc
          exact h (hdd i j k l hc)
        rw [z b d a c (by tauto), z d b a c (by tauto), z b d c a (by tauto), z d b c a (by tauto)]
        ring

/-- C114, mean field: for a density-density interaction the mean field of the Hartree solver is the classical one, level `a`
is shifted by `∑_c V_ac n_c`. -/
theorem C114_mean_field (fs : List ι) (hnd : fs.Nodup) (x : Op ι) (hx : Canonical x) (ts : List (Mono ι × ℂ))
    (hts : Enumerates ts x) (U : T4 fs.length) (hU : getRpaTensor fs ts = .ok U) (hdd : DensityDensity fs x)
    (p : Params fs.length κ V) (hp : p.U = U) (v : Fin fs.length → ℝ) :
    meanField (hartree p).U ((hartree p).vec2mat v) = diagonal fun a => ∑ c, coupling fs x a c * (v c : ℂ) := by
  have hT := densityDensity_tensor fs hnd x hx ts hts U hU hdd
  ext b a
  show ∑ c, ∑ d, -p.U a b c d * (diagonal fun i => (v i : ℂ)) c d = _
  rw [hp]
  simp only [Matrix.diagonal_apply, mul_ite, mul_zero, Finset.sum_ite_eq, Finset.mem_univ, if_true]
  by_cases hab : b = a
  · subst hab
    rw [if_pos rfl]
    refine Finset.sum_congr rfl fun c _ => ?_
    by_cases hc : b = c
    · subst hc
      rw [hT, if_pos ⟨rfl, rfl⟩, coupling_self]
      ring
    · rw [hT, if_neg (by tauto), if_pos ⟨rfl, rfl⟩]
      ring
  · rw [if_neg hab]
    refine Finset.sum_eq_zero fun c _ => ?_
    rw [hT, if_neg (by rintro ⟨rfl, rfl⟩; exact hab rfl), if_neg (by tauto)]
    ring

/-- C114, interaction energy: the reported `E_int` of any density matrix, in terms of the couplings. The first part is
(minus, see C48) the Hartree energy, the second the exchange energy. -/
theorem C114_interaction (fs : List ι) (hnd : fs.Nodup) (x : Op ι) (hx : Canonical x) (ts : List (Mono ι × ℂ))
    (hts : Enumerates ts x) (U : T4 fs.length) (hU : getRpaTensor fs ts = .ok U) (hdd : DensityDensity fs x)
    (rho : Matrix (Fin fs.length) (Fin fs.length) ℂ) :
    eInt U rho = -(1 / 2 * ∑ a, ∑ c, coupling fs x a c * (rho a a * rho c c))
      + 1 / 2 * ∑ a, ∑ c, coupling fs x a c * (rho a c * rho c a) := by
  have hT := densityDensity_tensor fs hnd x hx ts hts U hU hdd
  have h1 : ∀ a, (∑ b, ∑ c, ∑ d, rho a b * U a b c d * rho c d)
      = ∑ c, coupling fs x a c * (rho a c * rho c a) - ∑ c, coupling fs x a c * (rho a a * rho c c) := by
    intro a
    have e1 : ∀ b c d, rho a b * U a b c d * rho c d
        = (if a = d ∧ c = b then coupling fs x a c * (rho a b * rho c d) else 0)
          - if a = b ∧ c = d then coupling fs x a c * (rho a b * rho c d) else 0 := by
      intro b c d
      rw [hT]
      split_ifs <;> ring
    simp only [e1, Finset.sum_sub_distrib]
    congr 1
    · rw [Finset.sum_comm]
      refine Finset.sum_congr rfl fun c _ => ?_
      rw [Finset.sum_eq_single c, Finset.sum_eq_single a]
      · rw [if_pos ⟨rfl, rfl⟩]
      · intro d _ hd
        rw [if_neg (by tauto)]
      · simp
      · intro b _ hb
        refine Finset.sum_eq_zero fun d _ => ?_
        rw [if_neg (by tauto)]
      · simp
    · rw [Finset.sum_eq_single a]
      · refine Finset.sum_congr rfl fun c _ => ?_
        rw [Finset.sum_eq_single c]
        · rw [if_pos ⟨rfl, rfl⟩]
        · intro d _ hd
          rw [if_neg (by tauto)]
        · simp
      · intro b _ hb
        refine Finset.sum_eq_zero fun c _ => Finset.sum_eq_zero fun d _ => ?_
        rw [if_neg (by tauto)]
      · simp
  unfold eInt
  simp only [h1, Finset.sum_sub_distrib]
  ring

/-- the hypothesis on the operator: the Hubbard interaction -/
example : DensityDensity [(0 : Fin 2), 1] hubbardU := by
  intro i j k l h
  have h1 : K4 [(0 : Fin 2), 1] i j k l = [⟨true, 0⟩, ⟨true, 1⟩, ⟨false, 1⟩, ⟨false, 0⟩] := by
    by_contra hne
    exact h (Finsupp.single_eq_of_ne hne)
  revert h1
  clear h
  revert i j k l
  decide

/-- C114, interaction energy of the Hartree solver: what is reported is, for a diagonal density matrix, minus (C48) the
classical energy of the occupations. (Missing: for other density matrices it is not, `C114_interaction_violated`.) -/
theorem C114_interaction_partial (fs : List ι) (hnd : fs.Nodup) (x : Op ι) (hx : Canonical x) (ts : List (Mono ι × ℂ))
    (hts : Enumerates ts x) (U : T4 fs.length) (hU : getRpaTensor fs ts = .ok U) (hdd : DensityDensity fs x)
    (occ : Fin fs.length → ℂ) :
    eInt U (diagonal occ) = -(1 / 2 * ∑ a, ∑ c, coupling fs x a c * (occ a * occ c)) := by
  rw [C114_interaction fs hnd x hx ts hts U hU hdd]
  have h0 : ∀ a c, coupling fs x a c * ((diagonal occ : Matrix _ _ ℂ) a c * (diagonal occ : Matrix _ _ ℂ) c a) = 0 := by
    intro a c
    by_cases h : a = c
    · subst h
      rw [coupling_self, zero_mul]
    · rw [Matrix.diagonal_apply_ne _ h, zero_mul, mul_zero]
  simp only [h0, Finset.sum_const_zero, mul_zero, add_zero, Matrix.diagonal_apply_eq]

end

/-! ## Agreement of both solvers -/

section Agree

variable [Fintype κ]

theorem updateDensity_diag [Nonempty κ] [NeZero n] (p : Params n κ V) (hs : Lindhard.EigSpec p.eig) (s : State n κ)
    (hd : ∀ k, ∃ e : Fin n → ℝ, s.ekMF k = diagonal fun i => (e i : ℂ)) :
    ∃ r : Fin n → ℝ, (updateDensity p s).rho = diagonal fun i => (r i : ℂ) := by
  choose e he using hd
  have hh : ∀ k, (s.ekMF k).IsHermitian := by
    intro k
    rw [he k, Matrix.IsHermitian, Matrix.diagonal_conjTranspose]
    congr 1
    funext i
    exact Complex.conj_ofReal _
  have h1 : (updateDensity p s).rho = thermalDensity p.beta s.ekMF s.mu := density_eq p.beta s.mu hs s.ekMF hh
  refine ⟨fun i => (Fintype.card κ : ℝ)⁻¹ * ∑ k, fermi p.beta (e k i - s.mu), ?_⟩
  have h2 : ∀ k, fermiMatrix p.beta (s.ekMF k - (s.mu : ℂ) • 1)
      = diagonal fun i => (fermi p.beta (e k i - s.mu) : ℂ) := by
    intro k
    rw [← HfResponse.fermiMatrix_diagonal, he k, Matrix.smul_one_eq_diagonal, Matrix.diagonal_sub]
    congr 2
    funext i
    push_cast
    rfl
  rw [h1, thermalDensity]
  simp only [h2]
  ext i j
  rw [Matrix.smul_apply, Matrix.sum_apply]
  by_cases hij : i = j
  · subst hij
    simp
  · simp [Matrix.diagonal_apply_ne _ hij]

/-- what both solvers need to agree: bands and interaction that leave diagonal density matrices diagonal -/
structure DiagonalProblem (p : Params n κ V) : Prop where
  bands : ∀ k, ∃ e : Fin n → ℝ, p.ek k = diagonal fun i => (e i : ℂ)
  mixes : ∀ a b c, a ≠ b → p.U a b c c = 0
  real : ∀ a c, (p.U a a c c).im = 0

theorem DiagonalProblem.mean {p : Params n κ V} (hp : DiagonalProblem p) (v : Fin n → ℝ) :
    ∃ m : Fin n → ℝ, meanField p.U (diagonal fun i => (v i : ℂ)) = diagonal fun i => (m i : ℂ) := by
  refine ⟨fun a => ∑ c, -(p.U a a c c).re * v c, ?_⟩
  ext b a
  show ∑ c, ∑ d, -p.U a b c d * (diagonal fun i => (v i : ℂ)) c d = _
  simp only [Matrix.diagonal_apply, mul_ite, mul_zero, Finset.sum_ite_eq, Finset.mem_univ, if_true]
  by_cases hab : b = a
  · subst hab
    rw [if_pos rfl]
    push_cast
    refine Finset.sum_congr rfl fun c _ => ?_
    have : p.U b b c c = ((p.U b b c c).re : ℂ) := Complex.ext (by simp) (by simp [hp.real b c])
    rw [this, Complex.ofReal_re]
  · rw [if_neg hab]
    refine Finset.sum_eq_zero fun c _ => ?_
    rw [hp.mixes a b c (fun h => hab h.symm), neg_zero, zero_mul]

/-- how the vectors of the two solvers are related: a vector of the Hartree solver is a vector of the other solver without
off-diagonal part -/
structure Embeds (p : Params n κ V) [AddCommGroup V] [Module ℝ V] (nrm : V → ℝ) (nrmH : (Fin n → ℝ) → ℝ)
    (emb : (Fin n → ℝ) →ₗ[ℝ] V) : Prop where
  toMat : ∀ v, p.vec2mat (emb v) = diagonal fun i => (v i : ℂ)
  toVec : ∀ v : Fin n → ℝ, p.mat2vec (diagonal fun i => (v i : ℂ)) = emb v
  norm : ∀ v, nrm (emb v) = nrmH v

variable [Nonempty κ] [NeZero n] [AddCommGroup V] [Module ℝ V] {p : Params n κ V} {nrm : V → ℝ}
  {nrmH : (Fin n → ℝ) → ℝ} {emb : (Fin n → ℝ) →ₗ[ℝ] V}

/-- same state, embedded vector -/
def lift {α β γ : Type*} (f : β → γ) : Except String (α × β) → Except String (α × γ)
  | .error e => .error e
  | .ok (s, v) => .ok (s, f v)

theorem finish_agree (hs : Lindhard.EigSpec p.eig) (he : Embeds p nrm nrmH emb) (s : State n κ)
    (hd : ∀ k, ∃ e : Fin n → ℝ, s.ekMF k = diagonal fun i => (e i : ℂ)) :
    (Except.ok (updateDensity p s, p.mat2vec (updateDensity p s).rho) : Except String (State n κ × V))
      = lift emb (.ok (updateDensity (hartree p) s, (hartree p).mat2vec (updateDensity (hartree p) s).rho)) := by
  obtain ⟨r, hr⟩ := updateDensity_diag p hs s hd
  have h1 : updateDensity (hartree p) s = updateDensity p s := rfl
  have h2 : (hartree p).mat2vec (updateDensity p s).rho = r := by
    show (fun i => ((updateDensity p s).rho i i).re) = r
    rw [hr]
    funext i
    simp
  rw [h1, h2, hr, he.toVec]
  rfl

theorem step_agree (hs : Lindhard.EigSpec p.eig) (hp : DiagonalProblem p) (he : Embeds p nrm nrmH emb) (s : State n κ)
    (v : Fin n → ℝ) (N : Option ℝ) : densityStep p s (emb v) N = lift emb (densityStep (hartree p) s v N) := by
  have hsum : ∀ k, ∃ e : Fin n → ℝ, p.ek k + meanField p.U (diagonal fun i => (v i : ℂ)) = diagonal fun i => (e i : ℂ) := by
    intro k
    obtain ⟨e, h1⟩ := hp.bands k
    obtain ⟨m, h2⟩ := hp.mean v
    refine ⟨fun i => e i + m i, ?_⟩
    rw [h1, h2, Matrix.diagonal_add]
    congr 1
    funext i
    push_cast
    rfl
  unfold densityStep
  dsimp only
  rw [he.toMat]
  show _ = lift emb (match (match N with
    | none => Except.ok (updateDispersion p (updateMeanField p s (diagonal fun i => (v i : ℂ))))
    | some N => updateMu p (updateDispersion p (updateMeanField p s (diagonal fun i => (v i : ℂ)))) N
        (some (updateDispersion p (updateMeanField p s (diagonal fun i => (v i : ℂ)))).mu)) with
    | .error e => .error e
    | .ok s => .ok (updateDensity (hartree p) s, (hartree p).mat2vec (updateDensity (hartree p) s).rho))
  cases N with
  | none => exact finish_agree hs he _ hsum
  | some N =>
    dsimp only
    cases hu : updateMu p (updateDispersion p (updateMeanField p s (diagonal fun i => (v i : ℂ)))) N
        (some (updateDispersion p (updateMeanField p s (diagonal fun i => (v i : ℂ)))).mu) with
    | error e => rfl
    | ok s1 =>
      dsimp only
      refine finish_agree hs he s1 ?_
      rw [updateMu_ok p _ _ _ _ hu]
      exact hsum

theorem loop_agree (hs : Lindhard.EigSpec p.eig) (hp : DiagonalProblem p) (he : Embeds p nrm nrmH emb) (N mixing tol : ℝ) :
    ∀ (fuel : ℕ) (s : State n κ) (v : Fin n → ℝ) (hist : List (Fin n → ℝ)),
      solveLoop p nrm N mixing tol fuel s (emb v) (hist.map emb)
        = lift (List.map emb) (solveLoop (hartree p) nrmH N mixing tol fuel s v hist) := by
  intro fuel
  induction fuel with
  | zero => intro s v hist; rfl
  | succ fuel ih =>
    intro s v hist
    rw [solveLoop, solveLoop, step_agree hs hp he]
    cases hd : densityStep (hartree p) s v (some N) with
    | error e => rfl
    | ok q =>
      obtain ⟨s1, new⟩ := q
      simp only [lift]
      have e1 : nrm (emb v) = nrmH v := he.norm v
      have e2 : nrm (emb v - emb new) = nrmH (v - new) := by rw [← map_sub, he.norm]
      have e3 : hist.map emb ++ [emb v] = (hist ++ [v]).map emb := by simp
      have e4 : (1 - mixing) • emb v + mixing • emb new = emb ((1 - mixing) • v + mixing • new) := by
        rw [map_add, map_smul, map_smul]
      rw [e1, e2, e3, e4]
      split_ifs
      · rfl
      · exact ih s1 _ _

/-- C114, agreement: when bands and interaction keep the density matrix diagonal the Hartree solver and the Hartree-Fock
solver make the same steps, refuse the same input and report the same state. -/
theorem C114_agree (hs : Lindhard.EigSpec p.eig) (hp : DiagonalProblem p) (he : Embeds p nrm nrmH emb) (s : State n κ)
    (N : ℝ) (M0 : Option (Fin n → ℝ)) (mu0 : Option ℝ) (nitermax : ℕ) (mixing tol : ℝ) :
    solveIterState p nrm s N (M0.map fun m => diagonal fun i => (m i : ℂ)) mu0 nitermax mixing tol
      = lift (List.map emb)
        (solveIterState (hartree p) nrmH s N (M0.map fun m => diagonal fun i => (m i : ℂ)) mu0 nitermax mixing tol) := by
  have hset : solveSetup p s N (M0.map fun m => diagonal fun i => (m i : ℂ)) mu0
      = lift emb (solveSetup (hartree p) s N (M0.map fun m => diagonal fun i => (m i : ℂ)) mu0) := by
    have hsum : ∀ (m : Fin n → ℝ) k, ∃ e : Fin n → ℝ, p.ek k + (diagonal fun i => (m i : ℂ)) = diagonal fun i => (e i : ℂ) := by
      intro m k
      obtain ⟨e, h1⟩ := hp.bands k
      refine ⟨fun i => e i + m i, ?_⟩
      rw [h1, Matrix.diagonal_add]
      congr 1
      funext i
      push_cast
      rfl
    have main : ∀ (s1 : State n κ) (M : Matrix (Fin n) (Fin n) ℂ) (_ : ∃ m : Fin n → ℝ, M = diagonal fun i => (m i : ℂ)),
        (match updateMu p (updateDispersion p { s1 with M := M }) N none with
          | .error e => (.error e : Except String (State n κ × V))
          | .ok s => .ok (updateDensity p s, p.mat2vec (updateDensity p s).rho))
        = lift emb (match updateMu p (updateDispersion p { s1 with M := M }) N none with
          | .error e => .error e
          | .ok s => .ok (updateDensity (hartree p) s, (hartree p).mat2vec (updateDensity (hartree p) s).rho)) := by
      rintro s1 _ ⟨m, rfl⟩
      cases hu : updateMu p (updateDispersion p { s1 with M := diagonal fun i => (m i : ℂ) }) N none with
      | error e => rfl
      | ok s2 =>
        dsimp only
        refine finish_agree hs he s2 ?_
        rw [updateMu_ok p _ _ _ _ hu]
        exact hsum m
    unfold solveSetup
    have hmu : updateMu (hartree p) s N (some 0) = updateMu p s N (some 0) := rfl
    cases mu0 with
    | some m0 =>
      cases M0 with
      | none => exact main { s with mu := m0 } 0 ⟨0, by simp⟩
      | some m => exact main { s with mu := m0 } _ ⟨m, rfl⟩
    | none =>
      dsimp only
      rw [hmu]
      cases updateMu p s N (some 0) with
      | error e => rfl
      | ok s1 =>
        cases M0 with
        | none => exact main s1 0 ⟨0, by simp⟩
        | some m => exact main s1 _ ⟨m, rfl⟩
  unfold solveIterState
  by_cases h1 : ¬ 0 ≤ mixing
  · rw [if_pos h1, if_pos h1]
    rfl
  by_cases h2 : ¬ mixing ≤ 1
  · rw [if_neg h1, if_neg h1, if_pos h2, if_pos h2]
    rfl
  · rw [if_neg h1, if_neg h1, if_neg h2, if_neg h2, hset]
    cases solveSetup (hartree p) s N (M0.map fun m => diagonal fun i => (m i : ℂ)) mu0 with
    | error e => rfl
    | ok q =>
      obtain ⟨s0, v0⟩ := q
      simp only [lift]
      have h1 := loop_agree hs hp he N mixing tol nitermax s0 v0 []
      rw [List.map_nil] at h1
      rw [h1]
      cases solveLoop (hartree p) nrmH N mixing tol nitermax s0 v0 [] with
      | error e => rfl
      | ok q => rfl

/-- C114: the hypothesis of the agreement for a self adjoint density-density interaction and bands without hybridisation -/
theorem C114_operator {ι : Type} [LinearOrder ι] (fs : List ι) (hnd : fs.Nodup) (x : Operators.Op ι) (hx : Operators.Canonical x)
    (hself : Operators.dagger x = x) (ts : List (Operators.Mono ι × ℂ)) (hts : Operators.Enumerates ts x)
    (U : Operators.T4 fs.length) (hU : Operators.getRpaTensor fs ts = .ok U) (hdd : DensityDensity fs x)
    (p : Params fs.length κ V) (hp : p.U = U)
    (hb : ∀ k, ∃ e : Fin fs.length → ℝ, p.ek k = diagonal fun i => (e i : ℂ)) : DiagonalProblem p := by
  have hT := densityDensity_tensor fs hnd x hx ts hts U hU hdd
  refine ⟨hb, fun a b c hab => ?_, fun a c => ?_⟩
  · rw [hp, hT, if_neg (by rintro ⟨rfl, rfl⟩; exact hab rfl), if_neg (by tauto), sub_zero]
  · rw [hp]
    exact Complex.conj_eq_iff_im.1 (rpaTensor_conj fs hnd x hx hself ts hts U hU a a c c)

end Agree

/-! ## The hypotheses and the violation -/

/-- diagonal and upper triangle of a hermitian matrix, the content of the vectors of `HartreeFockSolver` (C46) -/
abbrev HermVec (n : ℕ) := (Fin n → ℝ) × (Fin n → Fin n → ℂ)

/-- the solver of a model with a complete vectorisation -/
def fockParams (beta : ℝ) (ek : κ → Matrix (Fin n) (Fin n) ℂ) (U : Operators.T4 n) (eig : Lindhard.Eig (Fin n))
    (brentq : Brentq) : Params n κ (HermVec n) :=
  { beta := beta, muMin := some (-1), muMax := some 2, ek := ek, U := U,
    mat2vec := fun m => (fun i => (m i i).re, fun i j => if i < j then m i j else 0),
    vec2mat := fun v => fun i j => if i = j then (v.1 i : ℂ) else if i < j then v.2 i j else (starRingEnd ℂ) (v.2 j i),
    eigv := eig, eig := eig, brentq := brentq }

theorem fockParams_embeds (beta : ℝ) (ek : κ → Matrix (Fin n) (Fin n) ℂ) (U : Operators.T4 n) (eig : Lindhard.Eig (Fin n))
    (brentq : Brentq) : Embeds (fockParams beta ek U eig brentq)
      (fun v => √(∑ i, v.1 i ^ 2 + ∑ i, ∑ j, ‖v.2 i j‖ ^ 2)) (fun v => √(∑ i, v i ^ 2)) (LinearMap.inl ℝ _ _) := by
  refine ⟨fun v => ?_, fun v => ?_, fun v => ?_⟩
  · ext i j
    simp only [fockParams, LinearMap.inl_apply, Matrix.diagonal_apply, Pi.zero_apply, map_zero, ite_self]
  · refine Prod.ext (funext fun i => ?_) (funext fun i => funext fun j => ?_)
    · simp [fockParams]
    · simp only [fockParams, LinearMap.inl_apply, Pi.zero_apply]
      split_ifs with h
      · rw [Matrix.diagonal_apply_ne _ h.ne]
      · rfl
  · simp

/-- the hypotheses of `C114_agree` for two levels with a Hubbard interaction -/
example (eig : Lindhard.Eig (Fin 2)) (brentq : Brentq) :
    DiagonalProblem (fockParams (κ := Fin 1) 1 (fun _ => diagonal ![0, 1]) HfResponse.hubTensor eig brentq) := by
  refine ⟨fun k => ⟨![0, 1], ?_⟩, ?_, ?_⟩
  · ext i j
    fin_cases i <;> fin_cases j <;> simp [fockParams]
  · intro a b c h
    fin_cases a <;> fin_cases b <;> fin_cases c <;> simp_all [fockParams, HfResponse.hubTensor]
  · intro a c
    fin_cases a <;> fin_cases c <;> simp [fockParams, HfResponse.hubTensor]

/-- hopping between two orbitals -/
def hop : Matrix (Fin 2) (Fin 2) ℂ := !![0, 1; 1, 0]

theorem hop_hermitian (x : ℝ) : (hop + (x : ℂ) • 1).IsHermitian := by
  ext i j
  fin_cases i <;> fin_cases j <;> simp [hop]

theorem hop_fermi (x : ℝ) : fermiMatrix 1 (hop + (x : ℂ) • 1 - (x : ℂ) • 1)
    = (1 / 2 : ℂ) • 1 + ((fermi 1 1 - 1 / 2 : ℝ) : ℂ) • hop := by
  rw [add_sub_cancel_right]
  have h0 := hop_hermitian 0
  rw [Complex.ofReal_zero, zero_smul, add_zero] at h0
  have h1 := HfResponse.fermiMatrix_of_sq 1 1 one_ne_zero h0 (by
    ext i j
    fin_cases i <;> fin_cases j <;> simp [hop, Matrix.mul_apply, Fin.sum_univ_two])
  rw [div_one] at h1
  exact h1

/-- two orbitals with hopping and the interaction `n_0 n_1` in the Hartree solver -/
def dimer (eig : Lindhard.Eig (Fin 2)) (brentq : Brentq) : Params 2 (Fin 1) (Fin 2 → ℝ) :=
  hartree (fockParams 1 (fun _ => hop) HfResponse.hubTensor eig brentq)

theorem dimer_filling (h : Fin 1 → Matrix (Fin 2) (Fin 2) ℂ) (x : ℝ) (hh : ∀ k, h k = hop + (x : ℂ) • 1) :
    filling 1 h x = 1 := by
  unfold filling
  simp only [hh, hop_fermi]
  simp [hop, Matrix.trace_fin_two]

theorem dimer_mu {eig : Lindhard.Eig (Fin 2)} (hs : Lindhard.EigSpec eig) {brentq : Brentq} (hbr : BrentSpec 0 0 brentq)
    (s : State 2 (Fin 1)) (x : ℝ) (h0 : -1 < x) (h1 : x < 2) (hh : ∀ k, s.ekMF k = hop + (x : ℂ) • 1) (mu0 : Option ℝ) :
    updateMu (dimer eig brentq) s 1 mu0 = .ok { s with mu := x } := by
  have hherm : ∀ k, (s.ekMF k).IsHermitian := fun k => by rw [hh k]; exact hop_hermitian x
  have hmono := C85_unique 1 one_pos s.ekMF hherm
  have hx := dimer_filling s.ekMF x hh
  obtain ⟨s', hs'⟩ := (C85_range (dimer eig brentq) hs 0 0 hbr s hherm 1 mu0 (-1) 2 rfl rfl).2 (by
    have e1 := hmono h0
    have e2 := hmono h1
    rw [hx] at e1 e2
    exact mul_nonpos_of_nonpos_of_nonneg (sub_nonpos.2 e1.le) (sub_nonneg.2 e2.le))
  obtain ⟨e1, e2⟩ := C85_filling (dimer eig brentq) (by exact zero_le_one) hs 0 0 hbr s s' hherm 1 mu0 hs'
  rw [zero_mul, add_zero, mul_zero] at e2
  have e3 : filling 1 s.ekMF s'.mu = filling 1 s.ekMF x := by
    rw [hx]
    exact sub_eq_zero.1 (abs_nonpos_iff.1 e2)
  rw [hs', e1, hmono.injective e3]

theorem dimer_density {eig : Lindhard.Eig (Fin 2)} (hs : Lindhard.EigSpec eig) (brentq : Brentq)
    (s : State 2 (Fin 1)) (x : ℝ) (hh : ∀ k, s.ekMF k = hop + (x : ℂ) • 1) (hmu : s.mu = x) :
    (updateDensity (dimer eig brentq) s).rho = (1 / 2 : ℂ) • 1 + ((fermi 1 1 - 1 / 2 : ℝ) : ℂ) • hop := by
  have hherm : ∀ k, (s.ekMF k).IsHermitian := fun k => by rw [hh k]; exact hop_hermitian x
  have h1 : (updateDensity (dimer eig brentq) s).rho = thermalDensity 1 s.ekMF s.mu := density_eq 1 s.mu hs s.ekMF hherm
  rw [h1, thermalDensity, hmu]
  simp only [hh, hop_fermi]
  simp

theorem dimer_vec (eig : Lindhard.Eig (Fin 2)) (brentq : Brentq) {m : Matrix (Fin 2) (Fin 2) ℂ}
    (hm : m = (1 / 2 : ℂ) • 1 + ((fermi 1 1 - 1 / 2 : ℝ) : ℂ) • hop) :
    (dimer eig brentq).mat2vec m = fun _ => 1 / 2 := by
  funext i
  show (m i i).re = _
  rw [hm]
  fin_cases i <;> simp [hop]

theorem fermi_one_lt : fermi 1 1 < 1 / 2 := by
  unfold fermi
  have : (1 : ℝ) < Real.exp (1 * 1) := by
    rw [Real.one_lt_exp_iff]
    norm_num
  rw [div_lt_div_iff₀ (by positivity) (by norm_num)]
  linarith

/-- C114 is violated: two orbitals with hopping and the interaction `n_0 n_1` at half filling. The Hartree iteration converges
at once, to occupations one half, but the reported interaction energy (and with it `E_tot` and `Omega`) is not the one of these
occupations: it contains the exchange energy of the off-diagonal density matrix, although its mean field was left out. -/
theorem C114_interaction_violated : ∃ (p : Params 2 (Fin 1) (Fin 2 → ℝ)) (s' : State 2 (Fin 1)) (hist : List (Fin 2 → ℝ)),
    Lindhard.EigSpec p.eig ∧ BrentSpec 0 0 p.brentq ∧ p = dimer p.eig p.brentq ∧
    solveIterState p (fun v => ‖v‖) atomState 1 none (some 0) 5 (1 / 2) (1 / 1000) = .ok (s', hist) ∧ hist.length < 5 ∧
    -- occupations and mean field
    (∀ a, s'.rho a a = 1 / 2) ∧ s'.M = meanField p.U (diagonal fun a => s'.rho a a) ∧
    -- the energy of the occupations, and the one reported
    eInt p.U (diagonal fun a => s'.rho a a) = -(1 / 4) ∧ s'.eint = -(1 / 4) + ((fermi 1 1 - 1 / 2 : ℝ) : ℂ) ^ 2 ∧
    s'.eint ≠ eInt p.U (diagonal fun a => s'.rho a a) := by
  obtain ⟨eig, hs⟩ := Lindhard.exists_eigSpec (o := Fin 2)
  obtain ⟨brentq, hbr⟩ := exists_brent 0 0 le_rfl le_rfl
  -- setup
  have hek0 : ∀ k : Fin 1, (updateDispersion (dimer eig brentq) { atomState with mu := 0, M := 0 }).ekMF k
      = hop + ((0 : ℝ) : ℂ) • 1 := fun k => by simp [updateDispersion, meanFieldDispersion, dimer, hartree, fockParams]
  have hset : ∃ s0, solveSetup (dimer eig brentq) atomState 1 none (some 0) = .ok (s0, fun _ => 1 / 2) := by
    unfold solveSetup
    dsimp only
    rw [dimer_mu hs hbr _ 0 (by norm_num) (by norm_num) hek0]
    refine ⟨_, congrArg Except.ok (Prod.ext rfl ?_)⟩
    exact dimer_vec eig brentq (dimer_density hs brentq _ 0 hek0 rfl)
  obtain ⟨s0, h0⟩ := hset
  -- one step
  have hmf : meanField HfResponse.hubTensor (diagonal fun _ : Fin 2 => ((1 / 2 : ℝ) : ℂ)) = ((1 / 2 : ℝ) : ℂ) • 1 := by
    rw [atom_meanField fun _ => 1 / 2, Matrix.smul_one_eq_diagonal]
  have hek1 : ∀ k : Fin 1, (updateDispersion (dimer eig brentq) (updateMeanField (dimer eig brentq) s0
      ((dimer eig brentq).vec2mat fun _ => 1 / 2))).ekMF k = hop + ((1 / 2 : ℝ) : ℂ) • 1 := by
    intro k
    show hop + meanField HfResponse.hubTensor (diagonal fun _ : Fin 2 => ((1 / 2 : ℝ) : ℂ)) = _
    rw [hmf]
  obtain ⟨s1, h1, hrho, hM⟩ : ∃ s1, densityStep (dimer eig brentq) s0 (fun _ => 1 / 2) (some 1) = .ok (s1, fun _ => 1 / 2) ∧
      s1.rho = (1 / 2 : ℂ) • 1 + ((fermi 1 1 - 1 / 2 : ℝ) : ℂ) • hop ∧ s1.M = ((1 / 2 : ℝ) : ℂ) • 1 := by
    unfold densityStep
    dsimp only
    rw [dimer_mu hs hbr _ (1 / 2) (by norm_num) (by norm_num) hek1]
    exact ⟨_, congrArg Except.ok (congrArg (Prod.mk _) (dimer_vec eig brentq (dimer_density hs brentq _ (1 / 2) hek1 rfl))),
      dimer_density hs brentq _ (1 / 2) hek1 rfl, hmf⟩
  have hr : ∀ a, s1.rho a a = 1 / 2 := by
    intro a
    rw [hrho]
    fin_cases a <;> simp [hop]
  have hd : (diagonal fun a => s1.rho a a) = diagonal fun _ : Fin 2 => ((1 / 2 : ℝ) : ℂ) := by
    congr 1
    funext a
    rw [hr]
    norm_num
  have he1 : eInt HfResponse.hubTensor (diagonal fun a => s1.rho a a) = -(1 / 4) := by
    rw [hd]
    simp [eInt, HfResponse.hubTensor, Fin.sum_univ_two, Matrix.diagonal]
    norm_num
  have he2 : eInt HfResponse.hubTensor s1.rho = -(1 / 4) + ((fermi 1 1 - 1 / 2 : ℝ) : ℂ) ^ 2 := by
    rw [hrho]
    simp [eInt, HfResponse.hubTensor, Fin.sum_univ_two, hop]
    ring
  refine ⟨dimer eig brentq, updateTotalEnergy (dimer eig brentq) s1, [fun _ => 1 / 2], hs, hbr, rfl, ?_, by simp, hr, ?_, he1,
    he2, ?_⟩
  · unfold solveIterState
    rw [if_neg (by norm_num), if_neg (by norm_num), h0]
    dsimp only
    rw [solveLoop]
    rw [h1]
    dsimp only
    rw [if_pos]
    · rfl
    · refine ⟨?_, by simp⟩
      rw [pi_norm_const]
      norm_num
  · show s1.M = meanField HfResponse.hubTensor (diagonal fun a => s1.rho a a)
    rw [hd, hmf, hM]
  · show eInt HfResponse.hubTensor s1.rho ≠ eInt HfResponse.hubTensor (diagonal fun a => s1.rho a a)
    rw [he1, he2]
    intro h
    have h3 : ((fermi 1 1 - 1 / 2 : ℝ) : ℂ) ^ 2 = 0 := by
      have := sub_eq_zero.2 h
      simpa using this
    have h4 : ((fermi 1 1 - 1 / 2 : ℝ) : ℂ) = 0 := by simpa using h3
    have h5 : fermi 1 1 - 1 / 2 = 0 := by exact_mod_cast h4
    have := fermi_one_lt
    linarith

end Verif.HartreeFock
