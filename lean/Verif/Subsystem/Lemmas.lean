import Verif.Parallel.Lemmas
import Verif.Rpa.Model
import Verif.Bse.Model
import Mathlib.LinearAlgebra.Matrix.NonsingularInverse
import Mathlib.Data.Fintype.BigOperators

/-!
# Parts of a system that are not coupled to the rest, for C127

`S` is a set of orbitals, `ι : s → o` an enumeration of it. A quantity of the whole system is restricted to the subsystem by
reading it at the indices `ι a`.
-/

set_option linter.unusedSectionVars false

noncomputable section

namespace Verif.Subsystem

open Verif.Parallel

/-! ## Loops -/

section Parallel

variable {P C M M' : Type*} [DecidableEq P] [AddCommMonoid M] [AddCommMonoid M']

theorem rankAssign_map (φ : M →+ M') (arr : List P) (f : P → M) (f' : P → M') (h : ∀ p ∈ arr, f' p = φ (f p)) :
    rankAssign arr f' = fun p => φ (rankAssign arr f p) := by
  have key : ∀ (l : List P) (o : P → M), (∀ p ∈ l, f' p = φ (f p)) →
      l.foldl (fun out p => Function.update out p (f' p)) (fun p => φ (o p))
        = fun p => φ (l.foldl (fun out p => Function.update out p (f p)) o p) := by
    intro l
    induction l with
    | nil => intro o _; rfl
    | cons a l ih =>
      intro o hl
      rw [List.foldl_cons, List.foldl_cons, ← ih _ fun p hp => hl p (List.mem_cons_of_mem _ hp)]
      congr 1
      funext p
      by_cases hp : p = a
      · subst hp; simp [hl p List.mem_cons_self]
      · simp [Function.update_of_ne hp]
  have := key arr (fun _ => 0) h
  simp only [map_zero] at this
  exact this

theorem mem_of_mem_view {r i : ℕ} {mesh : List P} {p : P} (h : p ∈ mpiView mesh r i) : p ∈ mesh := by
  simp only [mpiView, copyLoop_eq_take] at h
  exact List.mem_of_mem_drop (List.mem_of_mem_take h)

theorem distributedAssign_map (φ : M →+ M') (r : ℕ) (mesh : List P) (f : P → M) (f' : P → M')
    (h : ∀ p ∈ mesh, f' p = φ (f p)) : distributedAssign r mesh f' = fun p => φ (distributedAssign r mesh f p) := by
  funext p
  simp only [distributedAssign, allReduce, map_sum]
  refine Finset.sum_congr rfl fun i _ => ?_
  rw [rankAssign_map φ _ f f' fun p hp => h p (mem_of_mem_view hp)]

theorem distributedAssign_ind (Q : M → Prop) (h0 : Q 0) (ha : ∀ x y, Q x → Q y → Q (x + y)) (r : ℕ) (mesh : List P) (f : P → M)
    (h : ∀ p ∈ mesh, Q (f p)) (p : P) : Q (distributedAssign r mesh f p) := by
  simp only [distributedAssign, allReduce]
  refine Finset.sum_induction _ Q ha h0 fun i _ => ?_
  have key : ∀ (l : List P) (o : P → M), (∀ p ∈ l, Q (f p)) → (∀ p, Q (o p)) →
      Q (l.foldl (fun out p => Function.update out p (f p)) o p) := by
    intro l
    induction l with
    | nil => intro o _ ho; exact ho p
    | cons a l ih =>
      intro o hl ho
      rw [List.foldl_cons]
      refine ih _ (fun p hp => hl p (List.mem_cons_of_mem _ hp)) fun q => ?_
      by_cases hq : q = a
      · subst hq; simp [hl q List.mem_cons_self]
      · simp [Function.update_of_ne hq, ho q]
  exact key _ _ (fun p hp => h p (mem_of_mem_view hp)) fun _ => h0

theorem distributedAccumulate_map (φ : M →+ M') (r : ℕ) (mesh : List P) (f : P → C → M) (f' : P → C → M')
    (h : ∀ p ∈ mesh, ∀ x, f' p x = φ (f p x)) :
    distributedAccumulate r mesh f' = fun x => φ (distributedAccumulate r mesh f x) := by
  have key : ∀ (l : List P) (o : C → M), (∀ p ∈ l, ∀ x, f' p x = φ (f p x)) →
      l.foldl (fun out p => fun x => out x + f' p x) (fun x => φ (o x))
        = fun x => φ (l.foldl (fun out p => fun x => out x + f p x) o x) := by
    intro l
    induction l with
    | nil => intro o _; rfl
    | cons a l ih =>
      intro o hl
      rw [List.foldl_cons, List.foldl_cons, ← ih _ fun p hp => hl p (List.mem_cons_of_mem _ hp)]
      congr 1
      funext x
      rw [map_add, hl a List.mem_cons_self]
  funext x
  simp only [distributedAccumulate, allReduce, rankAccumulate, map_sum]
  refine Finset.sum_congr rfl fun i _ => ?_
  have := congrFun (key (mpiView mesh r i) (fun _ => 0) fun p hp => h p (mem_of_mem_view hp)) x
  simp only [map_zero] at this
  exact this

theorem distributedAccumulate_ind (Q : M → Prop) (h0 : Q 0) (ha : ∀ x y, Q x → Q y → Q (x + y)) (r : ℕ) (mesh : List P)
    (f : P → C → M) (h : ∀ p ∈ mesh, ∀ x, Q (f p x)) (x : C) : Q (distributedAccumulate r mesh f x) := by
  simp only [distributedAccumulate, allReduce, rankAccumulate]
  refine Finset.sum_induction _ Q ha h0 fun i _ => ?_
  have key : ∀ (l : List P) (o : C → M), (∀ p ∈ l, ∀ x, Q (f p x)) → (∀ x, Q (o x)) →
      Q (l.foldl (fun out p => fun x => out x + f p x) o x) := by
    intro l
    induction l with
    | nil => intro o _ ho; exact ho x
    | cons a l ih =>
      intro o hl ho
      rw [List.foldl_cons]
      exact ih _ (fun p hp => hl p (List.mem_cons_of_mem _ hp)) fun x => ha _ _ (ho x) (hl a List.mem_cons_self x)
  exact key _ _ (fun p hp => h p (mem_of_mem_view hp)) fun _ => h0

end Parallel

/-! ## Matrices -/

section Matrix

variable {F : Type*} [Field F] {m : Type*} [Fintype m] [DecidableEq m]

/-- no element of `A` connects `T` with the rest -/
def Apart (T : Set m) (A : Matrix m m F) : Prop := ∀ i j, (i ∈ T ↔ j ∈ T) ∨ A i j = 0

variable {T : Set m} {A B : Matrix m m F}

theorem Apart.compl (h : Apart T A) : Apart Tᶜ A := fun i j => (h i j).imp_left fun h => by
  rw [Set.mem_compl_iff, Set.mem_compl_iff, h]

theorem apart_zero : Apart T (0 : Matrix m m F) := fun _ _ => .inr rfl

theorem apart_one : Apart T (1 : Matrix m m F) := fun i j => by
  by_cases h : i = j
  · subst h; exact .inl Iff.rfl
  · exact .inr (Matrix.one_apply_ne h)

theorem Apart.add (h : Apart T A) (h' : Apart T B) : Apart T (A + B) := fun i j => by
  rcases h i j with h1 | h1
  · exact .inl h1
  · rcases h' i j with h2 | h2
    · exact .inl h2
    · exact .inr (by rw [Matrix.add_apply, h1, h2, add_zero])

theorem Apart.smul (c : F) (h : Apart T A) : Apart T (c • A) := fun i j =>
  (h i j).imp_right fun h => by rw [Matrix.smul_apply, h, smul_zero]

theorem Apart.neg (h : Apart T A) : Apart T (-A) := fun i j => (h i j).imp_right fun h => by rw [Matrix.neg_apply, h, neg_zero]

theorem Apart.sub (h : Apart T A) (h' : Apart T B) : Apart T (A - B) := by
  rw [sub_eq_add_neg]; exact h.add h'.neg

theorem Apart.mul (h : Apart T A) (h' : Apart T B) : Apart T (A * B) := fun i j => by
  by_cases hij : i ∈ T ↔ j ∈ T
  · exact .inl hij
  · refine .inr ?_
    rw [Matrix.mul_apply]
    refine Finset.sum_eq_zero fun k _ => ?_
    rcases h i k with h1 | h1
    · rcases h' k j with h2 | h2
      · exact absurd (h1.trans h2) hij
      · rw [h2, mul_zero]
    · rw [h1, zero_mul]

open scoped Classical in
/-- projector on the subsystem -/
def proj (F : Type*) [Field F] (T : Set m) : Matrix m m F := Matrix.diagonal fun i => if i ∈ T then 1 else 0

theorem apart_iff : Apart T A ↔ proj F T * A = A * proj F T := by
  classical
  constructor
  · intro h
    ext i j
    rw [proj, Matrix.diagonal_mul, Matrix.mul_diagonal]
    rcases h i j with h1 | h1
    · by_cases hi : i ∈ T
      · rw [if_pos hi, if_pos (h1.1 hi), one_mul, mul_one]
      · rw [if_neg hi, if_neg fun hj => hi (h1.2 hj), zero_mul, mul_zero]
    · rw [h1, mul_zero, zero_mul]
  · intro h i j
    have := congrFun (congrFun h i) j
    rw [proj, Matrix.diagonal_mul, Matrix.mul_diagonal] at this
    by_cases hi : i ∈ T <;> by_cases hj : j ∈ T
    · exact .inl (iff_of_true hi hj)
    · rw [if_pos hi, if_neg hj] at this; exact .inr (by simpa using this)
    · rw [if_neg hi, if_pos hj] at this; exact .inr (by simpa using this.symm)
    · exact .inl (iff_of_false hi hj)

theorem Apart.inv (h : Apart T A) : Apart T A⁻¹ := by
  by_cases hu : IsUnit A.det
  · rw [apart_iff] at h ⊢
    calc proj F T * A⁻¹ = A⁻¹ * A * (proj F T * A⁻¹) := by rw [Matrix.nonsing_inv_mul _ hu, one_mul]
      _ = A⁻¹ * (proj F T * A) * A⁻¹ := by rw [h]; simp only [mul_assoc]
      _ = A⁻¹ * proj F T * (A * A⁻¹) := by simp only [mul_assoc]
      _ = A⁻¹ * proj F T := by rw [Matrix.mul_nonsing_inv _ hu, mul_one]
  · rw [Matrix.nonsing_inv_apply_not_isUnit _ hu]
    exact apart_zero

variable {s : Type*} [Fintype s] [DecidableEq s] {ι : s → m}

theorem restrict_mul (hi : Function.Injective ι) (h : Apart (Set.range ι) A) (B : Matrix m m F) :
    (A * B).submatrix ι ι = A.submatrix ι ι * B.submatrix ι ι := by
  ext a b
  rw [Matrix.submatrix_apply, Matrix.mul_apply, Matrix.mul_apply]
  symm
  refine Fintype.sum_of_injective ι hi _ _ (fun i hi => ?_) fun _ => rfl
  rcases h (ι a) i with h1 | h1
  · exact absurd (h1.1 ⟨a, rfl⟩) hi
  · rw [h1, zero_mul]

theorem restrict_mul' (hi : Function.Injective ι) (h : Apart (Set.range ι) B) (A : Matrix m m F) :
    (A * B).submatrix ι ι = A.submatrix ι ι * B.submatrix ι ι := by
  ext a b
  rw [Matrix.submatrix_apply, Matrix.mul_apply, Matrix.mul_apply]
  symm
  refine Fintype.sum_of_injective ι hi _ _ (fun i hi => ?_) fun _ => rfl
  rcases h i (ι b) with h1 | h1
  · exact absurd (h1.2 ⟨b, rfl⟩) hi
  · rw [h1, mul_zero]

/-- the inverse of the whole restricted is the inverse of the part -/
theorem restrict_inv (hi : Function.Injective ι) (h : Apart (Set.range ι) A) (hu : IsUnit A.det) :
    A⁻¹.submatrix ι ι = (A.submatrix ι ι)⁻¹ := by
  symm
  refine Matrix.inv_eq_right_inv ?_
  rw [← restrict_mul hi h, Matrix.mul_nonsing_inv _ hu, Matrix.submatrix_one _ hi]

/-- the part is regular if the whole is -/
theorem restrict_isUnit (hi : Function.Injective ι) (h : Apart (Set.range ι) A) (hu : IsUnit A.det) :
    IsUnit (A.submatrix ι ι).det := by
  refine (Matrix.isUnit_iff_isUnit_det _).1 ⟨⟨A.submatrix ι ι, A⁻¹.submatrix ι ι, ?_, ?_⟩, rfl⟩
  · rw [← restrict_mul hi h, Matrix.mul_nonsing_inv _ hu, Matrix.submatrix_one _ hi]
  · rw [← restrict_mul' hi h, Matrix.nonsing_inv_mul _ hu, Matrix.submatrix_one _ hi]

end Matrix

/-! ## Tensors with four orbital indices -/

section Tensor

variable {F : Type*} [Field F] {o : Type*} [Fintype o] [DecidableEq o]

/-- the two orbitals are on the same side -/
def Side (S : Set o) (a b : o) : Prop := a ∈ S ↔ b ∈ S

/-- an interaction: no element has orbitals on both sides -/
def Separate (S : Set o) (t : o → o → o → o → F) : Prop :=
  ∀ a b c d, (Side S a b ∧ Side S a c ∧ Side S a d) ∨ t a b c d = 0

/-- a pair of propagators: `a` is connected with `d`, and `b` with `c` -/
def Linked (S : Set o) (t : o → o → o → o → F) : Prop := ∀ a b c d, (Side S a d ∧ Side S b c) ∨ t a b c d = 0

/-- pairs of orbitals of the subsystem -/
def pairSet (S : Set o) : Set (o × o) := {p | p.1 ∈ S ∧ p.2 ∈ S}

/-- restriction of a tensor -/
def cut {s E : Type*} (ι : s → o) (t : o → o → o → o → E) : s → s → s → s → E := fun a b c d => t (ι a) (ι b) (ι c) (ι d)

variable {S : Set o} {t u : o → o → o → o → F}

theorem Separate.linked (h : Separate S t) : Linked S t := fun a b c d => (h a b c d).imp_left fun h =>
  ⟨h.2.2, h.1.symm.trans h.2.1⟩

theorem Separate.add (h : Separate S t) (h' : Separate S u) : Separate S (t + u) := fun a b c d => by
  rcases h a b c d with h1 | h1
  · exact .inl h1
  · rcases h' a b c d with h2 | h2
    · exact .inl h2
    · exact .inr (by simp only [Pi.add_apply, h1, h2, add_zero])

theorem Separate.smul (x : F) (h : Separate S t) : Separate S (x • t) := fun a b c d =>
  (h a b c d).imp_right fun h => by simp only [Pi.smul_apply, h, smul_zero]

theorem separate_zero : Separate S (0 : o → o → o → o → F) := fun _ _ _ _ => .inr rfl

theorem Linked.add (h : Linked S t) (h' : Linked S u) : Linked S (t + u) := fun a b c d => by
  rcases h a b c d with h1 | h1
  · exact .inl h1
  · rcases h' a b c d with h2 | h2
    · exact .inl h2
    · exact .inr (by simp only [Pi.add_apply, h1, h2, add_zero])

theorem Linked.smul (x : F) (h : Linked S t) : Linked S (x • t) := fun a b c d =>
  (h a b c d).imp_right fun h => by simp only [Pi.smul_apply, h, smul_zero]

theorem linked_zero : Linked S (0 : o → o → o → o → F) := fun _ _ _ _ => .inr rfl

theorem Linked.compl (h : Linked S t) : Linked Sᶜ t := fun a b c d => (h a b c d).imp_left fun h => by
  simp only [Side, Set.mem_compl_iff] at h ⊢
  rw [h.1, h.2]
  exact ⟨Iff.rfl, Iff.rfl⟩

theorem Separate.compl (h : Separate S t) : Separate Sᶜ t := fun a b c d => (h a b c d).imp_left fun h => by
  simp only [Side, Set.mem_compl_iff] at h ⊢
  rw [← h.1, ← h.2.1, ← h.2.2]
  exact ⟨Iff.rfl, Iff.rfl, Iff.rfl⟩

open Verif.Rpa

theorem Linked.apart (h : Linked S t) : Apart (pairSet S) (pairMat t) := fun p q => by
  rcases h p.1 p.2 q.1 q.2 with h | h
  · refine .inl ?_
    simp only [pairSet, Set.mem_ofPred_eq]
    exact ⟨fun x => ⟨h.2.1 x.2, h.1.1 x.1⟩, fun x => ⟨h.1.2 x.2, h.2.2 x.1⟩⟩
  · exact .inr h

variable {s : Type*} [Fintype s] [DecidableEq s] {ι : s → o}

theorem range_pair : Set.range (Prod.map ι ι) = pairSet (Set.range ι) := by
  ext ⟨x, y⟩
  rw [Set.range_prodMap]
  rfl

theorem pair_injective (hi : Function.Injective ι) : Function.Injective (Prod.map ι ι) := hi.prodMap hi

theorem pairMat_cut : pairMat (cut ι t) = (pairMat t).submatrix (Prod.map ι ι) (Prod.map ι ι) := rfl

theorem cut_matTensor (M : Matrix (o × o) (o × o) F) :
    cut ι (matTensor M) = matTensor (M.submatrix (Prod.map ι ι) (Prod.map ι ι)) := rfl

/-- an interaction between a pair and anything that keeps pairs apart -/
theorem separate_mul {M : Matrix (o × o) (o × o) F} (h : Separate S t) (h1 : Apart (pairSet S) M) (h2 : Apart (pairSet Sᶜ) M) :
    Separate S (matTensor (pairMat t * M)) := by
  intro a b c d
  by_cases hs : Side S a b ∧ Side S a c ∧ Side S a d
  · exact .inl hs
  · refine .inr ?_
    change ∑ q : o × o, t a b q.1 q.2 * M q (c, d) = 0
    refine Finset.sum_eq_zero fun q _ => ?_
    rcases h a b q.1 q.2 with h3 | h3
    · by_cases ha : a ∈ S
      · rcases h1 q (c, d) with h4 | h4
        · have h5 := h4.1 ⟨h3.2.1.1 ha, h3.2.2.1 ha⟩
          exact absurd ⟨h3.1, iff_of_true ha h5.1, iff_of_true ha h5.2⟩ hs
        · rw [h4, mul_zero]
      · rcases h2 q (c, d) with h4 | h4
        · have h5 := h4.1 ⟨fun h => ha (h3.2.1.2 h), fun h => ha (h3.2.2.2 h)⟩
          exact absurd ⟨h3.1, iff_of_false ha h5.1, iff_of_false ha h5.2⟩ hs
        · rw [h4, mul_zero]
    · rw [h3, zero_mul]

/-- a bubble followed by an interaction -/
theorem separate_linked_mul (h : Linked S t) (h' : Separate S u) : Separate S (matTensor (pairMat t * pairMat u)) := by
  intro a b c d
  by_cases hs : Side S a b ∧ Side S a c ∧ Side S a d
  · exact .inl hs
  · refine .inr ?_
    change ∑ q : o × o, t a b q.1 q.2 * u q.1 q.2 c d = 0
    refine Finset.sum_eq_zero fun q _ => ?_
    rcases h a b q.1 q.2 with h3 | h3
    · rcases h' q.1 q.2 c d with h4 | h4
      · refine absurd ⟨?_, ?_, ?_⟩ hs
        · exact h3.1.trans (h4.1.symm.trans h3.2.symm)
        · exact h3.1.trans (h4.1.symm.trans h4.2.1)
        · exact h3.1.trans (h4.1.symm.trans h4.2.2)
      · rw [h4, mul_zero]
    · rw [h3, zero_mul]

end Tensor

end Verif.Subsystem
