import Verif.RpaTensor.Lemmas
import Mathlib.LinearAlgebra.Matrix.Notation
import Mathlib.Analysis.SpecialFunctions.Pow.Real
import Mathlib.Tactic.LinearCombination

/-!
# C38, C40, C41: charge/spin splitting, dropping the spin index, decoupling of the RPA
-/

namespace Verif.RpaTensor

open Verif.Rpa (T4 pairMat rpaPoint solveRpaPH)

set_option linter.unusedSectionVars false

variable {n : ℕ}

/-- Invariance under spin rotations: the tensor does not change when the same unitary `R` acts on
the spin of the first and third index and its conjugate on the spin of the second and fourth. -/
def SpinInvariant (fast : Bool) (X : T4 (Fin (2 * n)) ℂ) : Prop :=
  ∀ R : Matrix (Fin 2) (Fin 2) ℂ, R.conjTranspose * R = 1 →
    ∀ (s t u v : Fin 2) (a b c d : Fin n),
      ∑ s', ∑ t', ∑ u', ∑ v', R s' s * star (R t' t) * R u' u * star (R v' v)
          * X (slot fast s' a) (slot fast t' b) (slot fast u' c) (slot fast v' d)
        = X (slot fast s a) (slot fast t b) (slot fast u c) (slot fast v d)

/-! ## What the library functions produce is invariant -/

theorem spinForm_invariant (C S : T4 (Fin n) ℂ) (R : Matrix (Fin 2) (Fin 2) ℂ)
    (hR : R.conjTranspose * R = 1) (s t u v : Fin 2) (a b c d : Fin n) :
    ∑ s', ∑ t', ∑ u', ∑ v', R s' s * star (R t' t) * R u' u * star (R v' v)
      * spinForm C S s' t' u' v' a b c d = spinForm C S s t u v a b c d := by
  have horth : ∀ x y, star (R 0 x) * R 0 y + star (R 1 x) * R 1 y = if x = y then 1 else 0 := by
    intro x y
    have := congrFun (congrFun hR x) y
    rwa [Matrix.mul_apply, Fin.sum_univ_two, Matrix.one_apply] at this
  have h1 := horth t s
  have h2 := horth v u
  have h3 := horth v s
  have h4 := horth t u
  have hst : (if t = s then (1 : ℂ) else 0) = if s = t then 1 else 0 := by simp [eq_comm]
  have huv : (if v = u then (1 : ℂ) else 0) = if u = v then 1 else 0 := by simp [eq_comm]
  have hsv : (if v = s then (1 : ℂ) else 0) = if s = v then 1 else 0 := by simp [eq_comm]
  rw [hst] at h1
  rw [huv] at h2
  rw [hsv] at h3
  have key : spinForm C S s t u v a b c d
      = (if s = t then (1 : ℂ) else 0) * (if u = v then 1 else 0)
          * (1 / 2 * (C a b c d - S a b c d))
        + (if s = v then (1 : ℂ) else 0) * (if t = u then 1 else 0) * S a b c d := by
    simp only [spinForm]
    split_ifs <;> simp_all
  rw [key, ← h1, ← h2, ← h3, ← h4]
  simp only [Fin.sum_univ_two, spinForm, if_true, and_true, true_and, Fin.isValue,
    zero_ne_one, one_ne_zero, and_false, false_and, if_false, and_self]
  ring

/-- C38: every susceptibility assembled from a charge and a spin part is spin rotation invariant. -/
theorem C38_general_invariant (fast : Bool) (C S : T4 (Fin n) ℂ) :
    SpinInvariant fast (generalFromChargeSpin fast C S) := by
  intro R hR s t u v a b c d
  have hb : ∀ s t u v, generalFromChargeSpin fast C S (slot fast s a) (slot fast t b)
      (slot fast u c) (slot fast v d) = spinForm C S s t u v a b c d := fun s t u v =>
    congrFun (congrFun (congrFun (congrFun (block_general fast C S s t u v) a) b) c) d
  simp only [hb]
  exact spinForm_invariant C S R hR s t u v a b c d

/-- C38: every interaction tensor assembled from a charge and a spin part is spin rotation
invariant. -/
theorem C38_quartic_invariant (Uc Us : T4 (Fin n) ℂ) :
    SpinInvariant false (quarticFromChargeSpin Uc Us) := by
  rw [quartic_eq_general]
  exact C38_general_invariant false _ _

/-! ## Invariant tensors are assembled from a charge and a spin part -/

/-- a rotation by a phase -/
def rotZ : Matrix (Fin 2) (Fin 2) ℂ := !![1, 0; 0, Complex.I]

/-- exchange of up and down -/
def rotX : Matrix (Fin 2) (Fin 2) ℂ := !![0, 1; 1, 0]

/-- rotation of up to (up + down)/√2 -/
noncomputable def rotH : Matrix (Fin 2) (Fin 2) ℂ :=
  !![((Real.sqrt 2 / 2 : ℝ) : ℂ), ((Real.sqrt 2 / 2 : ℝ) : ℂ);
     ((Real.sqrt 2 / 2 : ℝ) : ℂ), -((Real.sqrt 2 / 2 : ℝ) : ℂ)]

theorem rotZ_unitary : rotZ.conjTranspose * rotZ = 1 := by
  ext i j
  fin_cases i <;> fin_cases j <;> simp [rotZ, Matrix.mul_apply, Fin.sum_univ_two]

theorem rotX_unitary : rotX.conjTranspose * rotX = 1 := by
  ext i j
  fin_cases i <;> fin_cases j <;> simp [rotX, Matrix.mul_apply, Fin.sum_univ_two]

theorem sqrt_half : ((Real.sqrt 2 / 2 : ℝ) : ℂ) * ((Real.sqrt 2 / 2 : ℝ) : ℂ) = 1 / 2 := by
  rw [← Complex.ofReal_mul]
  have : Real.sqrt 2 / 2 * (Real.sqrt 2 / 2) = 1 / 2 := by
    have := Real.mul_self_sqrt (show (0 : ℝ) ≤ 2 by norm_num)
    linarith
  rw [this]
  norm_num

theorem rotH_unitary : rotH.conjTranspose * rotH = 1 := by
  ext i j
  rw [Matrix.mul_apply, Fin.sum_univ_two]
  have hs := sqrt_half
  fin_cases i <;> fin_cases j <;>
    simp only [rotH, Matrix.conjTranspose_apply, Matrix.of_apply, Matrix.cons_val', Matrix.cons_val_zero,
      Matrix.cons_val_one, Matrix.cons_val_fin_one, Fin.zero_eta, Fin.mk_one, Fin.isValue,
      star_neg, Complex.star_def, Complex.conj_ofReal, Matrix.one_apply] <;>
    simp only [if_true, Fin.isValue, zero_ne_one, one_ne_zero, if_false] <;>
    first | ring1 | linear_combination 2 * hs

theorem invariant_nonConserving (fast : Bool) (X : T4 (Fin (2 * n)) ℂ) (h : SpinInvariant fast X)
    (q : Fin 2 × Fin 2 × Fin 2 × Fin 2) (hq : q ∈ nonConserving) :
    block fast X q.1 q.2.1 q.2.2.1 q.2.2.2 = 0 := by
  have I2 := Complex.I_mul_I
  funext a b c d
  have hz := h rotZ rotZ_unitary q.1 q.2.1 q.2.2.1 q.2.2.2 a b c d
  change X _ _ _ _ = 0
  have key : ∀ z : ℂ, Complex.I * z = z → z = 0 := fun z e => by
    linear_combination ((-1 - Complex.I) / 2) * e + z / 2 * I2
  have key' : ∀ z : ℂ, -(Complex.I * z) = z → z = 0 := fun z e => by
    linear_combination ((-1 + Complex.I) / 2) * e + z / 2 * I2
  have key'' : ∀ z : ℂ, -z = z → z = 0 := fun z e => by linear_combination (-1 / 2) * e
  simp only [nonConserving, List.mem_cons, List.not_mem_nil, or_false] at hq
  rcases hq with rfl | rfl | rfl | rfl | rfl | rfl | rfl | rfl | rfl | rfl <;>
    simp [rotZ, Fin.sum_univ_two] at hz <;>
    first | exact key _ hz | exact key' _ hz | exact key'' _ hz

theorem invariant_flip (fast : Bool) (X : T4 (Fin (2 * n)) ℂ) (h : SpinInvariant fast X)
    (s t u v : Fin 2) : block fast X s t u v = block fast X (1 - s) (1 - t) (1 - u) (1 - v) := by
  funext a b c d
  have hx := h rotX rotX_unitary s t u v a b c d
  change X _ _ _ _ = X _ _ _ _
  rw [← hx]
  fin_cases s <;> fin_cases t <;> fin_cases u <;> fin_cases v <;>
    simp [rotX, Fin.sum_univ_two]

theorem invariant_rotH (fast : Bool) (X : T4 (Fin (2 * n)) ℂ) (h : SpinInvariant fast X)
    (a b c d : Fin n) : block fast X 0 1 1 0 a b c d
      = block fast X 0 0 0 0 a b c d - block fast X 0 0 1 1 a b c d := by
  have hh := h rotH rotH_unitary 0 0 0 0 a b c d
  have hz : ∀ q ∈ nonConserving, X (slot fast q.1 a) (slot fast q.2.1 b) (slot fast q.2.2.1 c)
      (slot fast q.2.2.2 d) = 0 := fun q hq =>
    congrFun (congrFun (congrFun (congrFun (invariant_nonConserving fast X h q hq) a) b) c) d
  simp only [nonConserving, List.mem_cons, List.not_mem_nil, or_false, forall_eq_or_imp,
    forall_eq] at hz
  obtain ⟨z1, z2, z3, z4, z5, z6, z7, z8, z9, z10⟩ := hz
  have hf : ∀ s t u v, X (slot fast s a) (slot fast t b) (slot fast u c) (slot fast v d)
      = X (slot fast (1 - s) a) (slot fast (1 - t) b) (slot fast (1 - u) c)
          (slot fast (1 - v) d) := fun s t u v =>
    congrFun (congrFun (congrFun (congrFun (invariant_flip fast X h s t u v) a) b) c) d
  have f1 := hf 0 0 0 0
  have f2 := hf 0 0 1 1
  have f3 := hf 0 1 1 0
  simp only [sub_zero, sub_self, Fin.isValue] at f1 f2 f3
  have e4 : ((Real.sqrt 2 / 2 : ℝ) : ℂ) * ((Real.sqrt 2 / 2 : ℝ) : ℂ)
      * ((Real.sqrt 2 / 2 : ℝ) : ℂ) * ((Real.sqrt 2 / 2 : ℝ) : ℂ) = 1 / 4 := by
    linear_combination (((Real.sqrt 2 / 2 : ℝ) : ℂ) * ((Real.sqrt 2 / 2 : ℝ) : ℂ) + 1 / 2) * sqrt_half
  simp only [Fin.sum_univ_two, rotH, Matrix.of_apply, Matrix.cons_val', Matrix.cons_val_zero,
    Matrix.cons_val_one, Matrix.cons_val_fin_one, Fin.isValue, Complex.star_def,
    Complex.conj_ofReal, e4, z1, z2, z3, z4, z5, z6, z7, z8, z9, z10, mul_zero, add_zero,
    zero_add, ← f1, ← f2, ← f3] at hh
  change X _ _ _ _ = X _ _ _ _ - X _ _ _ _
  linear_combination 2 * hh

theorem invariant_spinForm (fast : Bool) (X : T4 (Fin (2 * n)) ℂ) (h : SpinInvariant fast X)
    (s t u v : Fin 2) : block fast X s t u v
      = spinForm (block fast X 0 0 0 0 + block fast X 0 0 1 1)
          (block fast X 0 0 0 0 - block fast X 0 0 1 1) s t u v := by
  have hz := invariant_nonConserving fast X h
  simp only [nonConserving, List.mem_cons, List.not_mem_nil, or_false, forall_eq_or_imp,
    forall_eq] at hz
  obtain ⟨z1, z2, z3, z4, z5, z6, z7, z8, z9, z10⟩ := hz
  have f1 := invariant_flip fast X h 1 1 1 1
  have f2 := invariant_flip fast X h 1 1 0 0
  have f3 := invariant_flip fast X h 1 0 0 1
  simp only [sub_zero, sub_self, Fin.isValue] at f1 f2 f3
  have hH := invariant_rotH fast X h
  fin_cases s <;> fin_cases t <;> fin_cases u <;> fin_cases v <;>
    simp only [Fin.zero_eta, Fin.mk_one, Fin.isValue, z1, z2, z3, z4, z5, z6, z7, z8, z9, z10,
      f1, f2, f3] <;>
    (funext a b c d; simp only [spinForm, hH, Pi.add_apply, Pi.sub_apply, Pi.zero_apply, if_true,
      and_true, true_and, Fin.isValue, zero_ne_one, one_ne_zero, and_false, false_and, if_false,
      and_self]) <;>
    ring

/-! ## C38 -/

/-- C38: splitting undoes the assembly of the interaction tensor. -/
theorem C38_split_of_assembled (Uc Us : T4 (Fin n) ℂ) :
    splitQuartic (quarticFromChargeSpin Uc Us) = .ok (Uc, Us) := by
  unfold splitQuartic
  rw [if_pos]
  · simp only [block_quartic]
    congr 2
    · funext a b c d
      simp [spinForm]
      ring
    · funext a b c d
      simp [spinForm]
  · intro q hq a b c d
    rw [block_quartic, spinForm_nonConserving _ _ q hq]
    simp

/-- C38: assembling the parts of an interaction tensor gives it back exactly when the tensor is
invariant under spin rotations. -/
theorem C38_assembled_of_split (U4 : T4 (Fin (2 * n)) ℂ) :
    (∃ Uc Us, splitQuartic U4 = .ok (Uc, Us) ∧ quarticFromChargeSpin Uc Us = U4) ↔
      SpinInvariant false U4 := by
  constructor
  · rintro ⟨Uc, Us, _, rfl⟩
    exact C38_quartic_invariant Uc Us
  · intro h
    unfold splitQuartic
    refine ⟨_, _, if_pos ?_, ?_⟩
    · intro q hq a b c d
      rw [invariant_nonConserving false U4 h q hq]
      simp
    · apply ext_block false
      intro s t u v
      rw [block_quartic, invariant_spinForm false U4 h s t u v]
      congr 1
      funext a b c d
      simp only [Pi.sub_apply, Pi.neg_apply, Pi.add_apply]
      ring

/-- C38: splitting undoes the assembly of a susceptibility, for both orderings and with or without
the check. -/
theorem C38_susceptibility_split (fast check : Bool) (chiC chiS : T4 (Fin n) ℂ) :
    chargeSpinFromGeneral fast check (generalFromChargeSpin fast chiC chiS)
      = .ok (chiC, chiS) := by
  unfold chargeSpinFromGeneral
  rw [if_neg]
  · simp only [block_general]
    congr 2
    · funext a b c d
      simp [spinForm]
      ring
    · funext a b c d
      simp [spinForm]
  · rintro ⟨_, h⟩
    exact h fun q hq => by rw [block_general, spinForm_nonConserving _ _ q hq]

/-- C38: assembling the parts of a susceptibility gives it back exactly when it is invariant under
spin rotations. -/
theorem C38_susceptibility_assemble (fast check : Bool) (X : T4 (Fin (2 * n)) ℂ) :
    (∃ chiC chiS, chargeSpinFromGeneral fast check X = .ok (chiC, chiS) ∧
      generalFromChargeSpin fast chiC chiS = X) ↔ SpinInvariant fast X := by
  constructor
  · rintro ⟨C, S, _, rfl⟩
    exact C38_general_invariant fast C S
  · intro h
    unfold chargeSpinFromGeneral
    refine ⟨_, _, if_neg ?_, ?_⟩
    · rintro ⟨_, hn⟩
      exact hn fun q hq => invariant_nonConserving fast X h q hq
    · apply ext_block fast
      intro s t u v
      rw [block_general, invariant_spinForm fast X h s t u v]

/-- C38: with the check, a susceptibility that mixes spins is refused. -/
theorem C38_susceptibility_refuses (fast : Bool) (X : T4 (Fin (2 * n)) ℂ) :
    chargeSpinFromGeneral fast true X = .error .assertion ↔
      ∃ q ∈ nonConserving, block fast X q.1 q.2.1 q.2.2.1 q.2.2.2 ≠ 0 := by
  unfold chargeSpinFromGeneral
  split_ifs with h
  · simp only [true_and, not_forall] at h
    simp only [true_iff]
    obtain ⟨q, hq, hne⟩ := h
    exact ⟨q, hq, hne⟩
  · simp only [true_and, not_not] at h
    simp only [reduceCtorEq, false_iff, not_exists, not_and, not_not]
    exact h

/-- C38, example: a spin rotation invariant tensor with two different parts. -/
example : ∃ U4 : T4 (Fin (2 * 1)) ℂ, SpinInvariant false U4 ∧
    splitQuartic U4 = .ok (fun _ _ _ _ => 3, fun _ _ _ _ => 2) :=
  ⟨_, C38_quartic_invariant _ _, C38_split_of_assembled _ _⟩

/-! ## C40 -/

/-- C40: with `spin_fast=True` the spin up elements are kept. -/
theorem C40_spin_fast {r : ℕ} (gf : (Fin r → Fin (2 * n)) → ℂ) (idx : Fin r → Fin n) :
    loseSpin true gf idx = gf fun p => slot true 0 (idx p) := rfl

/-- C40 fails for `spin_fast=False`: the documentation promises the spin up elements, the spin down
elements are returned. -/
theorem C40_spin_slow_violated : ∃ (gf : (Fin 2 → Fin (2 * 1)) → ℂ) (idx : Fin 2 → Fin 1),
    loseSpin false gf idx ≠ gf fun p => slot false 0 (idx p) := by
  refine ⟨fun i => if i 0 = 0 then 1 else 0, fun _ => 0, ?_⟩
  simp [loseSpin, slot]

/-- C40, what holds: the returned elements are the spin down ones, so they are the spin up ones
when the function does not depend on the spin. -/
theorem C40_spin_slow_partial {r : ℕ} (gf : (Fin r → Fin (2 * n)) → ℂ) :
    (∀ idx, loseSpin false gf idx = gf fun p => slot false 1 (idx p)) ∧
    ((∀ idx : Fin r → Fin n, gf (fun p => slot false 1 (idx p)) = gf fun p => slot false 0 (idx p)) →
      ∀ idx, loseSpin false gf idx = gf fun p => slot false 0 (idx p)) :=
  ⟨fun _ => rfl, fun h idx => h idx⟩

/-- C40, example of a spin independent function on two orbitals. -/
example : ∃ gf : (Fin 2 → Fin (2 * 2)) → ℂ,
    (∀ idx : Fin 2 → Fin 2, gf (fun p => slot false 1 (idx p)) = gf fun p => slot false 0 (idx p)) ∧
    loseSpin false gf ![0, 1] = 1 ∧ loseSpin false gf ![1, 1] = 0 := by
  refine ⟨fun i => if orbOf false (i 0) = 0 then 1 else 0, ?_, ?_, ?_⟩
  · intro idx; simp
  · simp [loseSpin]
  · simp [loseSpin]

/-! ## C41 -/

/-- C41: on every mesh point the RPA with a spin rotation invariant bubble and interaction is the
combination of the charge channel (interaction `-U_c`) and the spin channel (interaction `U_s`). -/
theorem C41_decoupling {P : Type*} [DecidableEq P] (ranks : ℕ) (hr : 0 < ranks) (mesh : List P)
    (hm : mesh.Nodup) (chiC0 chiS0 : P → T4 (Fin n) ℂ) (Uc Us : T4 (Fin n) ℂ)
    (hc : ∀ p ∈ mesh, IsUnit (1 - pairMat (chiC0 p) * pairMat (fun a b c d => -Uc a b c d)).det)
    (hs : ∀ p ∈ mesh, IsUnit (1 - pairMat (chiS0 p) * pairMat Us).det) :
    ∀ p ∈ mesh, chargeSpinFromGeneral false true
        (solveRpaPH ranks mesh (fun p => generalFromChargeSpin false (chiC0 p) (chiS0 p))
          (quarticFromChargeSpin Uc Us) p)
      = .ok (solveRpaPH ranks mesh chiC0 (fun a b c d => -Uc a b c d) p,
          solveRpaPH ranks mesh chiS0 Us p) := by
  intro p hp
  have h1 := Verif.Rpa.solveRpaPH_apply ranks hr mesh hm
    (fun p => generalFromChargeSpin false (chiC0 p) (chiS0 p)) (quarticFromChargeSpin Uc Us) p hp
  have h2 := Verif.Rpa.solveRpaPH_apply ranks hr mesh hm chiC0 (fun a b c d => -Uc a b c d) p hp
  have h3 := Verif.Rpa.solveRpaPH_apply ranks hr mesh hm chiS0 Us p hp
  rw [h1, h2, h3, quartic_eq_general,
    (rpaPoint_general false (chiC0 p) (chiS0 p) _ Us (hc p hp) (hs p hp)).2]
  exact C38_susceptibility_split false true _ _

/-- C41: the spinful problem is solvable whenever both channels are. -/
theorem C41_solvable (chiC0 chiS0 : T4 (Fin n) ℂ) (Uc Us : T4 (Fin n) ℂ)
    (hc : IsUnit (1 - pairMat chiC0 * pairMat (fun a b c d => -Uc a b c d)).det)
    (hs : IsUnit (1 - pairMat chiS0 * pairMat Us).det) :
    IsUnit (1 - pairMat (generalFromChargeSpin false chiC0 chiS0)
      * pairMat (quarticFromChargeSpin Uc Us)).det := by
  rw [quartic_eq_general]
  exact (rpaPoint_general false _ _ _ _ hc hs).1

/-- C41: the bubble of a spin degenerate Green's function is the tensor with equal charge and spin
parts: spin is conserved along each of the two lines. -/
theorem C41_bubble (fast : Bool) (x : T4 (Fin n) ℂ) (X : T4 (Fin (2 * n)) ℂ)
    (hX : ∀ s t u v a b c d, X (slot fast s a) (slot fast t b) (slot fast u c) (slot fast v d)
      = if s = v ∧ t = u then x a b c d else 0) :
    X = generalFromChargeSpin fast x x := by
  apply ext_block fast
  intro s t u v
  rw [block_general]
  funext a b c d
  simp only [block, hX, spinForm, sub_self, mul_zero, ite_self, zero_add]

/-- C41, example: one orbital, bubble 1, `U_c = 1`, `U_s = 1/2`. -/
example : ∃ (x uc us : T4 (Fin 1) ℂ),
    IsUnit (1 - pairMat x * pairMat (fun a b c d => -uc a b c d)).det ∧
    IsUnit (1 - pairMat x * pairMat us).det ∧ us 0 0 0 0 = 1 / 2 := by
  refine ⟨fun _ _ _ _ => 1, fun _ _ _ _ => 1, fun _ _ _ _ => 1 / 2, ?_, ?_, rfl⟩
  · rw [isUnit_iff_ne_zero, Matrix.det_eq_elem_of_subsingleton _ (0, 0)]
    rw [Matrix.sub_apply, Verif.Rpa.pairMat_mul_apply]
    simp
  · rw [isUnit_iff_ne_zero, Matrix.det_eq_elem_of_subsingleton _ (0, 0)]
    rw [Matrix.sub_apply, Verif.Rpa.pairMat_mul_apply]
    simp
    norm_num

end Verif.RpaTensor
