import Verif.FitDlr.FitProps
import Verif.FitDlr.ThermalMatrix

/-!
# C101 and C102 together: the exact Green's function of a Hamiltonian meets the constraints of the fit
-/

noncomputable section

set_option linter.unusedSectionVars false

namespace Verif.FitDlr

open Verif.Operators NormedSpace

variable {ι : Type} [LinearOrder ι] {I : Type} [Fintype I] [DecidableEq I]

/-- an orbital matrix as an array -/
def arr2 {n : ℕ} (h : Fin n → Fin n → ℂ) : ℕ → ℕ → ℂ := fun a b => if ha : a < n then if hb : b < n then h ⟨a, ha⟩ ⟨b, hb⟩ else 0 else 0

/-- an orbital tensor as an array -/
def arr4 {n : ℕ} (U : T4 n) : Arr4 := fun a b c d =>
  if ha : a < n then if hb : b < n then if hc : c < n then if hd : d < n then U ⟨a, ha⟩ ⟨b, hb⟩ ⟨c, hc⟩ ⟨d, hd⟩
    else 0 else 0 else 0 else 0

theorem arr2_apply {n : ℕ} (h : Fin n → Fin n → ℂ) (a b : Fin n) : arr2 h a b = h a b := by
  simp [arr2]

theorem tensorOf_arr4 {n : ℕ} (U : T4 n) : tensorOf n (arr4 U) = U := by
  funext a b c d
  simp [tensorOf, arr4]

attribute [local instance] Matrix.linftyOpNormedRing Matrix.linftyOpNormedAlgebra

/-- C102, exact Green's functions: take a hermitian Hamiltonian of constant, quadratic and quartic terms on at most three orbitals
and its thermal Green's function. If that function has hermitian coefficients in the representation, they meet every constraint that
`fitdlr` builds from the quadratic matrix and the interaction tensor it extracts from the operator, with either library.
Missing: more than three orbitals (`C102_four_violated`). -/
theorem C102_thermal_partial [Nonempty I] {e : Gen ι → Matrix I I ℂ} (he : CAR e) (fs : List ι) (hnd : fs.Nodup)
    (hno : fs.length ≤ 3) (x : Op ι) (hx : Canonical x)
    (hform : ∀ m ∈ x.support, m = [] ∨ (∃ i j, m = K2 fs i j) ∨ IsQuartic fs m) (hherm : (eval e x).IsHermitian)
    (ts : List (Mono ι × ℂ)) (hts : Enumerates ts x) (h : Fin fs.length → Fin fs.length → ℂ) (Γ : T4 fs.length)
    (hh : quadraticMatrixFromOperator fs ts = .ok h) (hΓ : getRpaTensor fs ts = .ok Γ) {β : ℝ} (hβ : β ≠ 0)
    {d : Driver} (hd : IsDriver β d) {nx : ℕ} {g : Arr} (hg : Hermitian nx fs.length g)
    (hrep : ∀ (a b : Fin fs.length) τ, d.eval nx g τ a b = thermalG matTrace β (eval e x) e (fs.get a) (fs.get b) τ)
    (disc dens : Bool) :
    Feasible d nx fs.length (arr2 h) (arr4 Γ) false disc dens (Symmetrizer.fitXFromG nx fs.length g) := by
  obtain ⟨h1, -, h3⟩ := C101_matrix he fs hnd x hx hform hherm ts hts h Γ hh hΓ β
  refine (C102_complete_partial hβ hd hno hg (fun a b => ?_) (fun a b => ?_) disc dens).1
  · rw [hrep, hrep]
    exact h1 a b
  · have e1 : (fun τ => d.eval nx g τ a b) = thermalG matTrace β (eval e x) e (fs.get a) (fs.get b) := funext (hrep a b)
    rw [e1, arr2_apply, tensorOf_arr4]
    simp only [hrep]
    exact h3 a b

/-! ### Example: one level -/

/-- the operators of one orbital in the basis `|0>, |1>` -/
def levelGen (g : Gen (Fin 1)) : Matrix (Fin 2) (Fin 2) ℂ := if g.dag then !![0, 0; 1, 0] else !![0, 1; 0, 0]

theorem level_car : CAR levelGen := by
  rintro ⟨d, i⟩ ⟨d', i'⟩
  obtain rfl : i = i' := Subsingleton.elim _ _
  ext a b
  fin_cases a <;> fin_cases b <;> cases d <;> cases d' <;> simp [levelGen, contraction]

/-- `eps c^+ c` -/
def levelMono : Mono (Fin 1) := [⟨true, 0⟩, ⟨false, 0⟩]

theorem level_eval (eps : ℝ) : eval levelGen (Finsupp.single levelMono (eps : ℂ)) = Matrix.diagonal ![0, (eps : ℂ)] := by
  refine (Finsupp.sum_single_index (h := fun (m : Mono (Fin 1)) (a : ℂ) => a • (m.map levelGen).prod) (zero_smul ℂ _)).trans ?_
  ext a b
  fin_cases a <;> fin_cases b <;> simp [levelMono, levelGen]

theorem level_exp (eps t : ℝ) :
    exp (t • (Matrix.diagonal ![0, (eps : ℂ)] : Matrix (Fin 2) (Fin 2) ℂ)) = Matrix.diagonal ![1, ((Real.exp (t * eps) : ℝ) : ℂ)] := by
  rw [← Matrix.diagonal_smul, Matrix.exp_diagonal]
  congr 1
  funext i
  fin_cases i
  · simp [Pi.coe_exp]
  · simp [Pi.coe_exp, ← Complex.exp_eq_exp_ℂ]

theorem level_greens (eps β τ : ℝ) :
    thermalG matTrace β (eval levelGen (Finsupp.single levelMono (eps : ℂ))) levelGen 0 0 τ
      = ((-Real.exp (-τ * eps) / (1 + Real.exp (-β * eps)) : ℝ) : ℂ) := by
  rw [level_eval]
  change -(Matrix.trace (exp ((-β) • Matrix.diagonal ![0, (eps : ℂ)]) * (exp (τ • Matrix.diagonal ![0, (eps : ℂ)])
    * levelGen ⟨false, 0⟩ * exp ((-τ) • Matrix.diagonal ![0, (eps : ℂ)])) * levelGen ⟨true, 0⟩))
    / Matrix.trace (exp ((-β) • Matrix.diagonal ![0, (eps : ℂ)])) = _
  rw [level_exp, level_exp, level_exp]
  simp [levelGen, Matrix.trace, Matrix.mul_apply, Fin.sum_univ_two, Matrix.diagonal_apply]

/-- The hypotheses of `C102_thermal_partial` hold for one level with one basis function at its frequency. -/
example (eps β : ℝ) (heps : eps ≠ 0) (hβ : β ≠ 0) :
    Feasible (triqsDriver β fun _ => β * eps) 1 1 (arr2 fun _ _ : Fin 1 => (eps : ℂ)) (arr4 fun _ _ _ _ : Fin 1 => 0) false true true
      (Symmetrizer.fitXFromG 1 1 fun _ _ _ => 1) := by
  have hE : Enumerates [(levelMono, (eps : ℂ))] (Finsupp.single levelMono (eps : ℂ)) := by
    refine ⟨by simp, fun m a => ?_⟩
    simp only [List.mem_singleton, Prod.mk.injEq]
    constructor
    · rintro ⟨rfl, rfl⟩
      exact ⟨by exact_mod_cast heps, by simp⟩
    · rintro ⟨ha, rfl⟩
      rw [Finsupp.single_apply] at ha ⊢
      split_ifs at ha ⊢ with h
      · exact ⟨h.symm, rfl⟩
      · exact absurd rfl ha
  have hmem : ∀ m ∈ (Finsupp.single levelMono (eps : ℂ)).support, m = levelMono := fun m hm => by
    simpa using Finsupp.support_single_subset hm
  have hh : quadraticMatrixFromOperator [(0 : Fin 1)] [(levelMono, (eps : ℂ))] = .ok fun _ _ => (eps : ℂ) := by
    have h1 : quadraticMatrixFromOperator [(0 : Fin 1)] [(levelMono, (eps : ℂ))]
        = .ok (set2 (fun _ _ => 0) (0 : Fin 1) (0 : Fin 1) (eps : ℂ)) := rfl
    rw [h1]
    congr 1
    funext i j
    exact if_pos ⟨Subsingleton.elim (α := Fin 1) _ _, Subsingleton.elim (α := Fin 1) _ _⟩
  have hΓ : getRpaTensor [(0 : Fin 1)] [(levelMono, (eps : ℂ))] = .ok fun _ _ _ _ => 0 := by
    have h1 : getRpaTensor [(0 : Fin 1)] [(levelMono, (eps : ℂ))]
        = .ok (fun a b c d => 4 * permSym (fun _ _ _ _ : Fin 1 => 0) b d a c) := rfl
    rw [h1]
    congr 1
    funext a b c d
    simp [permSym]
  refine C102_thermal_partial level_car [(0 : Fin 1)] (by decide) (by decide) (Finsupp.single levelMono (eps : ℂ)) ?_ ?_ ?_
    _ hE _ _ hh hΓ hβ (.inl ⟨_, rfl⟩) ?_ ?_ true true
  · intro m hm
    rw [hmem m hm]
    decide
  · intro m hm
    rw [hmem m hm]
    exact .inr (.inl ⟨0, 0, rfl⟩)
  · rw [level_eval]
    refine Matrix.isHermitian_diagonal_iff.2 fun i => ?_
    fin_cases i <;> simp [IsSelfAdjoint]
  · intro x a b _ _ _
    simp
  · intro a b τ
    obtain rfl : a = (0 : Fin 1) := Subsingleton.elim (α := Fin 1) _ _
    obtain rfl : b = (0 : Fin 1) := Subsingleton.elim (α := Fin 1) _ _
    refine Eq.trans ?_ (level_greens eps β τ).symm
    have h1 : -(τ / β) * (β * eps) = -τ * eps := by field_simp
    simp only [Driver.eval, triqsDriver, triqsKernel, h1, Finset.range_one, Finset.sum_singleton, mul_one, neg_mul]

end Verif.FitDlr
