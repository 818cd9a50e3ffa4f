import Verif.Rpa.Lemmas
import Mathlib.Data.Complex.Basic
import Mathlib.Data.Matrix.Basis
import Mathlib.Tactic.FinCases
import Mathlib.Tactic.LinearCombination

/-!
# C14 - C18: properties of the RPA solver and of the screened interaction
-/

namespace Verif.Rpa

open Verif.Parallel

variable {F : Type*} [Field F] {o : Type*} [Fintype o] [DecidableEq o]
variable {P : Type*} [DecidableEq P]

set_option linter.unusedSectionVars false

/-! ## Specification -/

/-- The equation of `/repo/doc/theory/rpa.rst`:
`χ(a b c d) = χ₀(a b c d) + χ₀(a b p q) Γ(q p s r) χ(r s c d)`. -/
def DocumentedRpa (chi0 U chi : T4 o F) : Prop :=
  ∀ a b c d, chi a b c d
    = chi0 a b c d + ∑ p, ∑ q, ∑ r, ∑ s, chi0 a b p q * U q p s r * chi r s c d

/-- The equation the code solves: the members of the pairs are not exchanged. -/
def UnswappedRpa (chi0 U chi : T4 o F) : Prop :=
  ∀ a b c d, chi a b c d
    = chi0 a b c d + ∑ p, ∑ q, ∑ r, ∑ s, chi0 a b p q * U p q r s * chi r s c d

theorem unswappedRpa_iff (chi0 U chi : T4 o F) : UnswappedRpa chi0 U chi ↔
    pairMat chi = pairMat chi0 + pairMat chi0 * pairMat U * pairMat chi := by
  constructor
  · intro h
    ext ⟨a, b⟩ ⟨c, d⟩
    change chi a b c d = chi0 a b c d + _
    rw [h a b c d, Matrix.mul_assoc, Matrix.mul_apply, Fintype.sum_prod_type]
    congr 1
    refine Finset.sum_congr rfl fun p _ => Finset.sum_congr rfl fun q _ => ?_
    rw [pairMat_mul_apply, Finset.mul_sum]
    refine Finset.sum_congr rfl fun r _ => ?_
    rw [Finset.mul_sum]
    refine Finset.sum_congr rfl fun s _ => ?_
    simp only [pairMat]
    ring
  · intro h a b c d
    have := congrFun (congrFun h (a, b)) (c, d)
    change chi a b c d = chi0 a b c d + _ at this
    rw [this, Matrix.mul_assoc, Matrix.mul_apply, Fintype.sum_prod_type]
    congr 1
    refine Finset.sum_congr rfl fun p _ => Finset.sum_congr rfl fun q _ => ?_
    rw [pairMat_mul_apply, Finset.mul_sum]
    refine Finset.sum_congr rfl fun r _ => ?_
    rw [Finset.mul_sum]
    refine Finset.sum_congr rfl fun s _ => ?_
    simp only [pairMat]
    ring

theorem documentedRpa_iff (chi0 U chi : T4 o F) :
    DocumentedRpa chi0 U chi ↔ UnswappedRpa chi0 (swapPairs U) chi := Iff.rfl

/-! ## C14 -/

theorem solveRpaPH_apply (ranks : ℕ) (hr : 0 < ranks) (mesh : List P) (hm : mesh.Nodup)
    (chi0 : P → T4 o F) (U : T4 o F) (p : P) (hp : p ∈ mesh) :
    solveRpaPH ranks mesh chi0 U p = rpaPoint (chi0 p) U := by
  rw [solveRpaPH, C02_distributedAssign ranks hr _ hm, if_pos hp]

/-- C14 (as coded): at every mesh point with invertible `1 - χ₀ U` the solver returns a solution of
the RPA equation with unswapped pairs. -/
theorem C14_rpa_solves_unswapped (ranks : ℕ) (hr : 0 < ranks) (mesh : List P) (hm : mesh.Nodup)
    (chi0 : P → T4 o F) (U : T4 o F) (p : P) (hp : p ∈ mesh)
    (hdet : IsUnit (1 - pairMat (chi0 p) * pairMat U).det) :
    UnswappedRpa (chi0 p) U (solveRpaPH ranks mesh chi0 U p) := by
  rw [solveRpaPH_apply ranks hr mesh hm chi0 U p hp, unswappedRpa_iff]
  exact rpa_eq_of_unit _ _ hdet

/-- C14: the solution of the equation is unique. -/
theorem C14_rpa_unique (chi0 U chi chi' : T4 o F)
    (hdet : IsUnit (1 - pairMat chi0 * pairMat U).det)
    (h : UnswappedRpa chi0 U chi) (h' : UnswappedRpa chi0 U chi') : chi = chi' := by
  rw [unswappedRpa_iff] at h h'
  have key : ∀ X : Matrix (o × o) (o × o) F, X = pairMat chi0 + pairMat chi0 * pairMat U * X →
      X = (1 - pairMat chi0 * pairMat U)⁻¹ * pairMat chi0 := by
    intro X hX
    have : (1 - pairMat chi0 * pairMat U) * X = pairMat chi0 := by
      rw [Matrix.sub_mul, Matrix.one_mul, sub_eq_iff_eq_add]
      exact hX
    calc X = (1 - pairMat chi0 * pairMat U)⁻¹ * ((1 - pairMat chi0 * pairMat U) * X) := by
          rw [← Matrix.mul_assoc, Matrix.nonsing_inv_mul _ hdet, Matrix.one_mul]
      _ = _ := by rw [this]
  exact pairMat_injective ((key _ h).trans (key _ h').symm)

/-- C14 (documented equation, partial): the documented equation holds when the interaction is
invariant under exchange inside both pairs, `U(b a d c) = U(a b c d)` (true for the RPA tensor of a
hermitian interaction with real coefficients). The full claim has no such hypothesis; see
`C14_documented_violated`. -/
theorem C14_documented_partial (ranks : ℕ) (hr : 0 < ranks) (mesh : List P) (hm : mesh.Nodup)
    (chi0 : P → T4 o F) (U : T4 o F) (hU : ∀ a b c d, U b a d c = U a b c d) (p : P) (hp : p ∈ mesh)
    (hdet : IsUnit (1 - pairMat (chi0 p) * pairMat U).det) :
    DocumentedRpa (chi0 p) U (solveRpaPH ranks mesh chi0 U p) := by
  rw [documentedRpa_iff]
  have : swapPairs U = U := by funext a b c d; exact hU a b c d
  rw [this]
  exact C14_rpa_solves_unswapped ranks hr mesh hm chi0 U p hp hdet

/-- C14: without interaction the bubble is returned. -/
theorem C14_rpa_noninteracting (ranks : ℕ) (hr : 0 < ranks) (mesh : List P) (hm : mesh.Nodup)
    (chi0 : P → T4 o F) (p : P) (hp : p ∈ mesh) :
    solveRpaPH ranks mesh chi0 (fun _ _ _ _ => 0) p = chi0 p := by
  rw [solveRpaPH_apply ranks hr mesh hm chi0 _ p hp, rpaPoint]
  have : pairMat (fun _ _ _ _ => 0 : T4 o F) = 0 := rfl
  rw [this, Matrix.mul_zero, sub_zero, inv_one, Matrix.one_mul]
  rfl

/-- C14: the result is the same as `χ₀ (1 - U χ₀)⁻¹`. -/
theorem C14_rpa_push_through (chi0 U : T4 o F) (hdet : IsUnit (1 - pairMat chi0 * pairMat U).det) :
    pairMat (rpaPoint chi0 U) = pairMat chi0 * (1 - pairMat U * pairMat chi0)⁻¹ := by
  rw [rpaPoint, pairMat_matTensor, push_through _ _ hdet]

/-- non-trivial instance of the invertibility hypothesis: one orbital, `χ₀ = 1/2`, `U = 1` -/
example : IsUnit (1 - pairMat (fun _ _ _ _ => 1 / 2 : T4 (Fin 1) ℚ)
    * pairMat (fun _ _ _ _ => 1 : T4 (Fin 1) ℚ)).det := by
  apply Matrix.isUnit_det_of_right_inverse (B := (2 : ℚ) • 1)
  ext ⟨a, b⟩ ⟨c, d⟩
  fin_cases a, b, c, d
  simp [Matrix.mul_apply, pairMat, Fintype.sum_prod_type]
  norm_num

/-! ### Witness against the documented equation -/

/-- antisymmetrised Kronecker delta -/
def asym (x y p q : Fin 3) : ℂ :=
  (if x = p ∧ y = q then 1 else 0) - (if x = q ∧ y = p then 1 else 0)

/-- RPA tensor of the hermitian interaction `i n₀ (c₁† c₂) + h.c.` (up to normalisation) -/
def Uwit : T4 (Fin 3) ℂ := fun a b c d =>
  Complex.I * asym a c 0 1 * asym b d 0 2 - Complex.I * asym a c 0 2 * asym b d 0 1

/-- bubble with a single non-vanishing element -/
def chiwit : T4 (Fin 3) ℂ := fun a b c d =>
  if a = 1 ∧ b = 2 ∧ c = 0 ∧ d = 0 then 1 else 0

theorem pairMat_chiwit : pairMat chiwit = Matrix.single (1, 2) (0, 0) 1 := by
  ext ⟨a, b⟩ ⟨c, d⟩
  simp only [pairMat, chiwit, Matrix.single_apply, Prod.mk.injEq]
  congr 1
  simp only [eq_iff_iff]
  constructor
  · rintro ⟨rfl, rfl, rfl, rfl⟩; simp
  · rintro ⟨⟨rfl, rfl⟩, rfl, rfl⟩; simp

theorem Uwit_val : Uwit 0 0 1 2 = Complex.I := by simp [Uwit, asym]
theorem Uwit_val' : Uwit 0 0 2 1 = -Complex.I := by simp [Uwit, asym]

theorem wit_unit (V : T4 (Fin 3) ℂ) (hne : 1 - V 0 0 1 2 ≠ 0) :
    IsUnit (1 - pairMat chiwit * pairMat V).det := by
  set R := pairMat chiwit * pairMat V with hR
  set z := V 0 0 1 2 with hz
  have hsq : R * R = z • R := by
    rw [hR, ← Matrix.mul_assoc, pairMat_chiwit, Matrix.single_mul_mul_single]
    have : pairMat V (0, 0) (1, 2) = z := rfl
    rw [this, one_mul, mul_one, ← Matrix.smul_mul, Matrix.smul_single, smul_eq_mul, mul_one]
  have h1 : (1 - R) * (1 + (1 - z)⁻¹ • R) = 1 := by
    rw [Matrix.sub_mul, Matrix.one_mul, Matrix.mul_add, Matrix.mul_one, Matrix.mul_smul, hsq,
      smul_smul]
    have : (1 - z)⁻¹ • R - (R + ((1 - z)⁻¹ * z) • R) = 0 := by
      have e : (1 - z)⁻¹ • R - (R + ((1 - z)⁻¹ * z) • R)
          = ((1 - z)⁻¹ * (1 - z) - 1) • R := by module
      rw [e, inv_mul_cancel₀ hne, sub_self, zero_smul]
    rw [add_sub_assoc, this, add_zero]
  exact Matrix.isUnit_det_of_right_inverse h1

theorem one_sub_I_ne : (1 - Complex.I) ≠ 0 := by
  intro h
  have := congrArg Complex.re h
  simp at this

theorem one_add_I_ne : (1 - -Complex.I) ≠ 0 := by
  intro h
  have := congrArg Complex.re h
  simp at this

theorem Uwit_unit : IsUnit (1 - pairMat chiwit * pairMat Uwit).det :=
  wit_unit _ (by rw [Uwit_val]; exact one_sub_I_ne)

theorem Uwit_unit' : IsUnit (1 - pairMat chiwit * pairMat (swapPairs Uwit)).det :=
  wit_unit _ (by
    have s1 : swapPairs Uwit 0 0 1 2 = -Complex.I := Uwit_val'
    rw [s1]; exact one_add_I_ne)

/-- C14 violated: there are an interaction with all symmetries of the RPA tensor of a hermitian
Hamiltonian and a bubble, with invertible `1 - χ₀ U`, for which the value returned by the code does
not solve the documented equation. -/
theorem C14_documented_violated : ∃ (chi0 U : T4 (Fin 3) ℂ),
    (∀ a b c d, U c b a d = -U a b c d) ∧ (∀ a b c d, U a d c b = -U a b c d) ∧
    (∀ a b c d, U b a d c = star (U a b c d)) ∧
    IsUnit (1 - pairMat chi0 * pairMat U).det ∧
    IsUnit (1 - pairMat chi0 * pairMat (swapPairs U)).det ∧
    ¬ DocumentedRpa chi0 U (rpaPoint chi0 U) := by
  refine ⟨chiwit, Uwit, ?_, ?_, ?_, Uwit_unit, Uwit_unit', ?_⟩
  · intro a b c d
    simp only [Uwit, asym]
    ring_nf
    simp only [and_comm]
    ring
  · intro a b c d
    simp only [Uwit, asym]
    simp only [and_comm]
    ring
  · intro a b c d
    have : ∀ x y p q, star (asym x y p q) = asym x y p q := by
      intro x y p q
      unfold asym
      split_ifs <;> simp
    simp only [Uwit, star_sub, star_mul', this]
    simp
    ring
  · intro h
    have hu : UnswappedRpa chiwit Uwit (rpaPoint chiwit Uwit) := by
      rw [unswappedRpa_iff]; exact rpa_eq_of_unit _ _ Uwit_unit
    set x := rpaPoint chiwit Uwit with hx
    have h1 := (unswappedRpa_iff _ _ _).1 ((documentedRpa_iff _ _ _).1 h)
    have h2 := (unswappedRpa_iff _ _ _).1 hu
    -- rows of the bubble other than (1,2) vanish, hence the same is true of the solution
    have hrow : ∀ V : T4 (Fin 3) ℂ, pairMat x = pairMat chiwit + pairMat chiwit * pairMat V * pairMat x →
        ∀ p q, p ≠ (1, 2) → pairMat x p q = 0 := by
      intro V hV p q hp
      rw [hV, pairMat_chiwit, Matrix.mul_assoc, Matrix.add_apply,
        Matrix.single_mul_apply_of_ne _ _ _ _ _ hp]
      simp [Matrix.single_apply, Ne.symm hp]
    have hval : ∀ V : T4 (Fin 3) ℂ, pairMat x = pairMat chiwit + pairMat chiwit * pairMat V * pairMat x →
        x 1 2 0 0 = 1 + V 0 0 1 2 * x 1 2 0 0 := by
      intro V hV
      have e := congrFun (congrFun hV (1, 2)) (0, 0)
      rw [pairMat_chiwit, Matrix.mul_assoc, Matrix.add_apply, Matrix.single_mul_apply_same,
        Matrix.single_apply_same, one_mul, Matrix.mul_apply,
        Finset.sum_eq_single (1, 2) (by
          intro p _ hp
          rw [hrow V hV p _ hp, mul_zero]) (by simp)] at e
      exact e
    have e1 := hval _ h1
    have e2 := hval _ h2
    have s1 : swapPairs Uwit 0 0 1 2 = -Complex.I := Uwit_val'
    rw [s1] at e1
    rw [Uwit_val] at e2
    have e3 : Complex.I * x 1 2 0 0 = 0 := by linear_combination (e1 - e2) / 2
    rcases mul_eq_zero.1 e3 with h0 | h0
    · exact Complex.I_ne_zero h0
    · rw [h0] at e1
      simp at e1

/-! ## C15, C16 -/

/-- C16: `matrix_to_tensor ∘ tensor_to_matrix = id`, for every iteration order of the Python set. -/
theorem C16_tensor_roundtrip (n : ℕ) (ord : List ℕ → List ℕ) (hord : ∀ l, (ord l).Perm l)
    (t : T4 (Fin n) F) : matrixToTensor ord (tensorToMatrix ord t) = t := by
  rw [tensorToMatrix_eq n ord hord, matrixToTensor_submatrix n ord hord]
  rfl

/-- C16: `tensor_to_matrix ∘ matrix_to_tensor = id`. -/
theorem C16_matrix_roundtrip (n : ℕ) (ord : List ℕ → List ℕ) (hord : ∀ l, (ord l).Perm l)
    (m : Matrix (Fin (n * n)) (Fin (n * n)) F) : tensorToMatrix ord (matrixToTensor ord m) = m := by
  ext i j
  have h : ∀ k : Fin (n * n), finProdFinEquiv (k.divNat, k.modNat) = k :=
    fun k => finProdFinEquiv.apply_symm_apply k
  simp only [tensorToMatrix, reshapeMat, matrixToTensor, reshapeTensor, h, idxPos_idxVec n ord hord]

/-- C16: the matrix product is the contraction over the inner pair. -/
theorem C16_product_is_contraction (n : ℕ) (ord : List ℕ → List ℕ) (hord : ∀ l, (ord l).Perm l)
    (A B : T4 (Fin n) F) :
    tensorToMatrix ord A * tensorToMatrix ord B
      = tensorToMatrix ord (fun a b c d => ∑ e, ∑ f, A a b e f * B e f c d) := by
  rw [tensorToMatrix_eq n ord hord, tensorToMatrix_eq n ord hord, Matrix.submatrix_mul_equiv,
    tensorToMatrix_eq n ord hord]
  congr 1
  ext ⟨a, b⟩ ⟨c, d⟩
  exact pairMat_mul_apply A B a b c d

/-- for three orbitals the diagonal pairs come first (flat indices 0, 4, 8) -/
example : idxList 3 id = [0, 4, 8, 1, 2, 3, 5, 6, 7] := by decide

theorem chiRpaSpin_eq (n : ℕ) (ord : List ℕ → List ℕ) (hord : ∀ l, (ord l).Perm l)
    (chi0 us : T4 (Fin n) F) : chiRpaSpin ord chi0 us = rpaPoint chi0 us := by
  rw [chiRpaSpin, tensorToMatrix_eq n ord hord, tensorToMatrix_eq n ord hord, matrixRpa,
    Matrix.submatrix_mul_equiv]
  have h1 : (1 : Matrix (Fin (n * n)) (Fin (n * n)) F)
      = (1 : Matrix (Fin n × Fin n) (Fin n × Fin n) F).submatrix
        ((idxEquiv n ord hord).trans finProdFinEquiv.symm)
        ((idxEquiv n ord hord).trans finProdFinEquiv.symm) := by
    rw [Matrix.submatrix_one_equiv]
  rw [h1]
  change matrixToTensor ord (((1 - pairMat chi0 * pairMat us).submatrix _ _)⁻¹ * _) = _
  rw [Matrix.inv_submatrix_equiv, Matrix.submatrix_mul_equiv, matrixToTensor_submatrix n ord hord]
  rfl

theorem chiRpaCharge_eq (n : ℕ) (ord : List ℕ → List ℕ) (chi0 uc : T4 (Fin n) F) :
    chiRpaCharge ord chi0 uc = chiRpaSpin ord chi0 (fun a b c d => -uc a b c d) := rfl

/-- The solver of matrix_rpa.py applied to tensors with exchanged last indices is the solver of the
C++ code for the interaction with both pairs exchanged. -/
theorem rpaPoint_swapLast (chi0 U : T4 o F) :
    rpaPoint (swapLast chi0) (swapLast U) = swapLast (rpaPoint chi0 (swapPairs U)) := by
  have h1 : pairMat (swapLast chi0) * pairMat (swapLast U)
      = pairMat chi0 * pairMat (swapPairs U) := by
    ext ⟨a, b⟩ ⟨c, d⟩
    rw [pairMat_mul_apply, pairMat_mul_apply, Finset.sum_comm]
    rfl
  funext a b c d
  simp only [rpaPoint, h1, matTensor, swapLast, Matrix.mul_apply]
  rfl

/-- C15 (partial): the python matrix RPA, with the documented exchange of the last two indices of all
tensors, equals the C++ solver for interactions with `U(b a d c) = U(a b c d)`; spin channel with `U`,
charge channel with `-U`. Without the hypothesis it is false, `C15_matrix_rpa_violated`. -/
theorem C15_matrix_rpa_partial (n : ℕ) (ord : List ℕ → List ℕ) (hord : ∀ l, (ord l).Perm l)
    (chi0 U : T4 (Fin n) F) (hU : ∀ a b c d, U b a d c = U a b c d) :
    chiRpaSpin ord (swapLast chi0) (swapLast U) = swapLast (rpaPoint chi0 U) ∧
    chiRpaCharge ord (swapLast chi0) (swapLast U)
      = swapLast (rpaPoint chi0 fun a b c d => -U a b c d) := by
  have hs : ∀ V : T4 (Fin n) F, (∀ a b c d, V b a d c = V a b c d) → swapPairs V = V := by
    intro V hV; funext a b c d; exact hV a b c d
  constructor
  · rw [chiRpaSpin_eq n ord hord, rpaPoint_swapLast, hs U hU]
  · rw [chiRpaCharge_eq, chiRpaSpin_eq n ord hord]
    have : (fun a b c d => -swapLast U a b c d) = swapLast (fun a b c d => -U a b c d) := rfl
    rw [this, rpaPoint_swapLast, hs _ (fun a b c d => by rw [hU])]

/-- C15: with no assumption on the symmetry of the interaction, the python matrix RPA solves the
*documented* RPA equation (spin channel). -/
theorem C15_matrix_rpa_documented (n : ℕ) (ord : List ℕ → List ℕ) (hord : ∀ l, (ord l).Perm l)
    (chi0 U : T4 (Fin n) F) (hdet : IsUnit (1 - pairMat chi0 * pairMat (swapPairs U)).det) :
    DocumentedRpa chi0 U (swapLast (chiRpaSpin ord (swapLast chi0) (swapLast U))) := by
  rw [chiRpaSpin_eq n ord hord, rpaPoint_swapLast, documentedRpa_iff, unswappedRpa_iff]
  exact rpa_eq_of_unit _ _ hdet

/-- C15 violated: for a hermitian interaction with complex coefficients both solvers differ (both
have an invertible denominator). -/
theorem C15_matrix_rpa_violated : ∃ (chi0 U : T4 (Fin 3) ℂ),
    (∀ a b c d, U b a d c = star (U a b c d)) ∧
    IsUnit (1 - pairMat chi0 * pairMat U).det ∧
    IsUnit (1 - pairMat chi0 * pairMat (swapPairs U)).det ∧
    ∀ ord : List ℕ → List ℕ, (∀ l, (ord l).Perm l) →
      chiRpaSpin ord (swapLast chi0) (swapLast U) ≠ swapLast (rpaPoint chi0 U) := by
  obtain ⟨chi0, U, -, -, hh, hdet, hdet', hnot⟩ := C14_documented_violated
  refine ⟨chi0, U, hh, hdet, hdet', ?_⟩
  intro ord hord heq
  have := C15_matrix_rpa_documented 3 ord hord chi0 U hdet'
  rw [heq] at this
  exact hnot this

/-! ## C17, C18 -/

/-- The documented equation (`/repo/c++/triqs_tprf/lattice/dynamical_screened_interaction.hpp:27-40`):
`W(abcd) = V(abcd) + V(abef) Π(fegh) W(hgcd)`. -/
def DocumentedW (Pi V W : T4 o F) : Prop :=
  ∀ a b c d, W a b c d = V a b c d + ∑ e, ∑ f, ∑ g, ∑ h, V a b e f * Pi f e g h * W h g c d

/-- The equation with the pair indices not exchanged. -/
def UnswappedW (Pi V W : T4 o F) : Prop :=
  ∀ a b c d, W a b c d = V a b c d + ∑ e, ∑ f, ∑ g, ∑ h, V a b e f * Pi e f g h * W g h c d

theorem unswappedW_iff (Pi V W : T4 o F) : UnswappedW Pi V W ↔ UnswappedRpa V Pi W := Iff.rfl

theorem documentedW_iff (Pi V W : T4 o F) :
    DocumentedW Pi V W ↔ UnswappedW (swapPairs Pi) V W := by
  have : ∀ a b c d, ∑ e, ∑ f, ∑ g, ∑ h, V a b e f * Pi f e g h * W h g c d
      = ∑ e, ∑ f, ∑ g, ∑ h, V a b e f * swapPairs Pi e f g h * W g h c d := by
    intro a b c d
    refine Finset.sum_congr rfl fun e _ => Finset.sum_congr rfl fun f _ => ?_
    rw [Finset.sum_comm]
    rfl
  simp only [DocumentedW, UnswappedW, this]

/-- C17: the optimised path (Matsubara bubble, static interaction) and the generic path compute the
same. -/
theorem C17_paths_agree (Pi V : T4 o F) : screenedOptPoint Pi V = screenedBubblePoint Pi V := by
  funext a b c d
  simp only [screenedOptPoint, screenedBubblePoint, matTensor]
  rw [Matrix.mul_apply, Fintype.sum_prod_type]
  have : pairMat (fun a b c d : o => (1 : Matrix (o × o) (o × o) F) (a, b) (c, d)
      - ∑ e, ∑ f, Pi a b e f * V e f c d) = 1 - pairMat Pi * pairMat V := by
    ext ⟨a, b⟩ ⟨c, d⟩
    rw [Matrix.sub_apply, pairMat_mul_apply]
    rfl
  rw [this]
  rfl

/-- C17: hence the overloads for a static interaction passed as a dynamic one agree, as complete
routines on any numbers of ranks, including the refusal of mismatched meshes. -/
theorem C17_overloads_agree {W K : Type*} [DecidableEq W] [DecidableEq K] (ranks : ℕ)
    (mesh : List (W × K)) (kmesh vkmesh : List K) (Pi : W × K → T4 o F) (V : K → T4 o F) :
    screenedOpt ranks mesh kmesh vkmesh Pi V
      = screenedBubble ranks mesh kmesh vkmesh Pi (.static V) ∧
    screenedBubble ranks mesh kmesh vkmesh Pi (.static V)
      = screenedBubble ranks mesh kmesh vkmesh Pi (.dynamic fun _ k => V k) ∧
    (kmesh ≠ vkmesh → ∃ e, screenedOpt ranks mesh kmesh vkmesh Pi V = .error e) := by
  refine ⟨?_, rfl, ?_⟩
  · simp only [screenedOpt, screenedBubble, C17_paths_agree, Bare.at]
  · intro h
    exact ⟨_, if_pos h⟩

theorem screenedBubble_push (Pi V : T4 o F) (hdet : IsUnit (1 - pairMat Pi * pairMat V).det) :
    pairMat (screenedBubblePoint Pi V) = (1 - pairMat V * pairMat Pi)⁻¹ * pairMat V := by
  rw [screenedBubblePoint, pairMat_matTensor, push_through]
  rwa [isUnit_det_comm]

/-- C17 (as coded): the screened interaction solves `W = V + V Π W` with unswapped pairs. -/
theorem C17_screened_solves_unswapped {W K : Type*} [DecidableEq W] [DecidableEq K] (ranks : ℕ)
    (hr : 0 < ranks) (mesh : List (W × K)) (hm : mesh.Nodup) (kmesh : List K)
    (Pi : W × K → T4 o F) (V : Bare W K o F) (p : W × K) (hp : p ∈ mesh)
    (hdet : IsUnit (1 - pairMat (Pi p) * pairMat (V.at p.1 p.2)).det) :
    ∃ res, screenedBubble ranks mesh kmesh kmesh Pi V = .ok res ∧
      UnswappedW (Pi p) (V.at p.1 p.2) (res p) := by
  refine ⟨_, if_neg (by simp), ?_⟩
  rw [C02_distributedAssign ranks hr _ hm, if_pos hp, unswappedW_iff, unswappedRpa_iff,
    screenedBubble_push _ _ hdet]
  apply rpa_eq_of_unit
  rwa [isUnit_det_comm]

/-- C17: uniqueness. -/
theorem C17_unique (Pi V W W' : T4 o F) (hdet : IsUnit (1 - pairMat Pi * pairMat V).det)
    (h : UnswappedW Pi V W) (h' : UnswappedW Pi V W') : W = W' :=
  C14_rpa_unique V Pi W W' (by rwa [isUnit_det_comm]) h h'

/-- C17: no polarisation, no screening (all three routines). -/
theorem C17_no_screening (V : T4 o F) :
    screenedBubblePoint (fun _ _ _ _ => 0) V = V ∧ screenedOptPoint (fun _ _ _ _ => 0) V = V ∧
    screenedGeneralizedPoint (fun _ _ _ _ => 0) V = V := by
  have h0 : pairMat (fun _ _ _ _ => 0 : T4 o F) = 0 := rfl
  have h1 : screenedBubblePoint (fun _ _ _ _ => 0) V = V := by
    rw [screenedBubblePoint, h0, Matrix.zero_mul, sub_zero, inv_one, Matrix.mul_one]; rfl
  refine ⟨h1, by rw [C17_paths_agree, h1], ?_⟩
  rw [screenedGeneralizedPoint, h0, Matrix.mul_zero, Matrix.zero_mul, zero_add]; rfl

/-- C17 (documented equation, partial): holds for polarisations with `Π(b a d c) = Π(a b c d)`. -/
theorem C17_documented_partial (Pi V : T4 o F) (hPi : ∀ a b c d, Pi b a d c = Pi a b c d)
    (hdet : IsUnit (1 - pairMat Pi * pairMat V).det) :
    DocumentedW Pi V (screenedBubblePoint Pi V) ∧ DocumentedW Pi V (screenedOptPoint Pi V) := by
  rw [C17_paths_agree, and_self, documentedW_iff]
  have : swapPairs Pi = Pi := by funext a b c d; exact hPi a b c d
  rw [this, unswappedW_iff, unswappedRpa_iff, screenedBubble_push _ _ hdet]
  apply rpa_eq_of_unit
  rwa [isUnit_det_comm]

/-- C17 violated: the value returned does not solve the documented equation in general (here with a
hermitian interaction; the roles of `χ₀` and `U` of `C14_documented_violated` are exchanged). -/
theorem C17_documented_violated : ∃ (Pi V : T4 (Fin 3) ℂ),
    IsUnit (1 - pairMat Pi * pairMat V).det ∧ ¬ DocumentedW Pi V (screenedBubblePoint Pi V) := by
  obtain ⟨chi0, U, -, -, -, hdet, -, hnot⟩ := C14_documented_violated
  have hdet' : IsUnit (1 - pairMat U * pairMat chi0).det := by rwa [← isUnit_det_comm]
  refine ⟨U, chi0, hdet', ?_⟩
  intro h
  apply hnot
  rw [documentedW_iff] at h
  have : screenedBubblePoint U chi0 = rpaPoint chi0 U := by
    apply pairMat_injective
    rw [screenedBubble_push _ _ hdet']
    rfl
  rw [this] at h
  exact h

/-- C18: screening with the RPA susceptibility of the same bubble and interaction equals screening
with the bubble. -/
theorem C18_generalized_equals_bubble (Pi V : T4 o F)
    (hdet : IsUnit (1 - pairMat Pi * pairMat V).det) :
    screenedGeneralizedPoint (rpaPoint Pi V) V = screenedBubblePoint Pi V := by
  apply pairMat_injective
  rw [screenedGeneralizedPoint, screenedBubblePoint, pairMat_matTensor, pairMat_matTensor, rpaPoint,
    pairMat_matTensor]
  set X := pairMat Pi
  set U := pairMat V
  have h : (1 - X * U)⁻¹ * X * U = (1 - X * U)⁻¹ - 1 := by
    have h1 : (1 - X * U)⁻¹ * (1 - X * U) = 1 := Matrix.nonsing_inv_mul _ hdet
    rw [Matrix.mul_sub, Matrix.mul_one, ← Matrix.mul_assoc] at h1
    exact eq_sub_of_add_eq (by rw [← eq_sub_iff_add_eq']; rw [sub_eq_iff_eq_add] at h1; rw [eq_sub_iff_add_eq]; exact h1.symm)
  rw [Matrix.mul_assoc U, h, Matrix.mul_sub, Matrix.mul_one]
  abel

/-- C18 for the complete routines with a constant interaction and any numbers of ranks. -/
theorem C18_routines_agree {W K : Type*} [DecidableEq W] [DecidableEq K] (r1 r2 r3 : ℕ)
    (h1 : 0 < r1) (h2 : 0 < r2) (h3 : 0 < r3) (mesh : List (W × K)) (hm : mesh.Nodup)
    (kmesh : List K) (Pi : W × K → T4 o F) (V : T4 o F) (p : W × K) (hp : p ∈ mesh)
    (hdet : IsUnit (1 - pairMat (Pi p) * pairMat V).det) :
    ∃ g b, screenedGeneralized r1 mesh kmesh kmesh (solveRpaPH r2 mesh Pi V) (.static fun _ => V)
        = .ok g ∧ screenedOpt r3 mesh kmesh kmesh Pi (fun _ => V) = .ok b ∧ g p = b p := by
  refine ⟨_, _, if_neg (by simp), if_neg (by simp), ?_⟩
  rw [C02_distributedAssign r1 h1 _ hm, C02_distributedAssign r3 h3 _ hm, if_pos hp, if_pos hp,
    solveRpaPH_apply r2 h2 mesh hm Pi V p hp, C17_paths_agree]
  exact C18_generalized_equals_bubble _ _ hdet

end Verif.Rpa
