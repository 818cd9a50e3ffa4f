import Verif.Operators.Library
import Mathlib.LinearAlgebra.Finsupp.Supported
import Mathlib.LinearAlgebra.Finsupp.Span
import Mathlib.Tactic.Module
import Mathlib.Tactic.NoncommRing
import Mathlib.Algebra.Algebra.Bilinear
import Mathlib.Algebra.Module.LinearMap.End

/-!
# The normal ordered operator class is the algebra of the anticommutation relations

`lmul_car` : left multiplication by elementary operators satisfies the CAR on
canonical operators; hence an operator is determined by its values in algebras
satisfying the CAR (`ext_car`), and evaluation turns `mul` into the product.
-/

set_option linter.unusedSectionVars false

noncomputable section

namespace Verif.Operators

open Finsupp

variable {ι : Type} [LinearOrder ι]

theorem lmul_single (g : Gen ι) (m : Mono ι) (a : ℂ) :
    lmul g (single m a) = a • mulGen g m := by
  simp [lmul]

/-- Canonical operators as a submodule. -/
def canon (ι : Type) [LinearOrder ι] : Submodule ℂ (Op ι) :=
  Finsupp.supported ℂ ℂ {m : Mono ι | m.Pairwise (· < ·)}

/-- Canonical operators all of whose factors are above `k`. -/
def above (k : Gen ι) : Submodule ℂ (Op ι) :=
  Finsupp.supported ℂ ℂ {m : Mono ι | (k :: m).Pairwise (· < ·)}

theorem mem_canon (x : Op ι) : x ∈ canon ι ↔ Canonical x := by
  simp only [canon, mem_supported, Canonical, Set.subset_def, Set.mem_ofPred_eq,
    Finset.mem_coe]

theorem above_le_canon (k : Gen ι) : above k ≤ canon ι :=
  supported_mono fun _ hm => (List.pairwise_cons.mp hm).2

/-- Prefixing every monomial. -/
def consL (k : Gen ι) : Op ι →ₗ[ℂ] Op ι := Finsupp.lmapDomain ℂ ℂ (List.cons k)

theorem consL_single (k : Gen ι) (m : Mono ι) (a : ℂ) :
    consL k (single m a) = single (k :: m) a := by
  simp [consL]

/-- A linear statement on a supported submodule may be checked on monomials. -/
theorem supported_induction {s : Set (Mono ι)} {p : Op ι → Prop}
    (h0 : p 0) (hadd : ∀ x y, p x → p y → p (x + y))
    (hs : ∀ m ∈ s, ∀ a : ℂ, p (single m a)) (x : Op ι)
    (hx : x ∈ Finsupp.supported ℂ ℂ s) : p x := by
  rw [mem_supported] at hx
  have hsum : x = x.support.sum fun m => single m (x m) := by
    conv_lhs => rw [← Finsupp.sum_single x]
    rfl
  have : ∀ t : Finset (Mono ι), (↑t : Set (Mono ι)) ⊆ s → p (t.sum fun m => single m (x m)) := by
    intro t
    induction t using Finset.induction_on with
    | empty => intro _; simpa using h0
    | insert m t hm ih =>
      intro hts
      rw [Finset.sum_insert hm]
      refine hadd _ _ (hs m (hts (by simp)) _) (ih fun y hy => hts (by simp [hy]))
  rw [hsum]
  exact this _ hx

theorem linear_ext_on {s : Set (Mono ι)} {V : Type*} [AddCommGroup V] [Module ℂ V]
    (f g : Op ι →ₗ[ℂ] V) (h : ∀ m ∈ s, f (single m 1) = g (single m 1)) (x : Op ι)
    (hx : x ∈ Finsupp.supported ℂ ℂ s) : f x = g x := by
  refine supported_induction (p := fun x => f x = g x) (by simp) ?_ ?_ x hx
  · intro x y hx hy; rw [map_add, map_add, hx, hy]
  · intro m hm a
    have : (single m a : Op ι) = a • single m 1 := by simp
    rw [this, map_smul, map_smul, h m hm]

theorem lmul_mem {s t : Set (Mono ι)} (g : Gen ι)
    (h : ∀ m ∈ s, mulGen g m ∈ Finsupp.supported ℂ ℂ t) (x : Op ι)
    (hx : x ∈ Finsupp.supported ℂ ℂ s) : lmul g x ∈ Finsupp.supported ℂ ℂ t := by
  refine supported_induction (p := fun x => lmul g x ∈ Finsupp.supported ℂ ℂ t)
    (by simp) ?_ ?_ x hx
  · intro x y hx hy; rw [map_add]; exact Submodule.add_mem _ hx hy
  · intro m hm a; rw [lmul_single]; exact Submodule.smul_mem _ _ (h m hm)

theorem consL_mem_canon (k : Gen ι) (x : Op ι) (hx : x ∈ above k) : consL k x ∈ canon ι := by
  refine supported_induction (p := fun x => consL k x ∈ canon ι) (by simp) ?_ ?_ x hx
  · intro x y hx hy; rw [map_add]; exact Submodule.add_mem _ hx hy
  · intro m hm a
    rw [consL_single]
    exact Finsupp.single_mem_supported _ _ hm

theorem consL_mem_above (j k : Gen ι) (hjk : j < k) (x : Op ι) (hx : x ∈ above k) :
    consL k x ∈ above j := by
  refine supported_induction (p := fun x => consL k x ∈ above j) (by simp) ?_ ?_ x hx
  · intro x y hx hy; rw [map_add]; exact Submodule.add_mem _ hx hy
  · intro m hm a
    rw [consL_single]
    refine Finsupp.single_mem_supported _ _ ?_
    refine List.pairwise_cons.mpr ⟨?_, hm⟩
    intro y hy
    rcases List.mem_cons.mp hy with rfl | hy
    · exact hjk
    · exact hjk.trans ((List.pairwise_cons.mp hm).1 y hy)

theorem mulGen_cons_gt (g h : Gen ι) (m : Mono ι) (hgh : h < g) :
    mulGen g (h :: m) = -consL h (mulGen g m) + contraction g h • single m 1 := by
  have h1 : g ≠ h := hgh.ne'
  have h2 : ¬ g < h := not_lt_of_gt hgh
  rw [mulGen, if_neg h1, if_neg h2]
  simp [consL]

theorem mulGen_cons_lt (g h : Gen ι) (m : Mono ι) (hgh : g < h) :
    mulGen g (h :: m) = single (g :: h :: m) 1 := by
  rw [mulGen, if_neg hgh.ne, if_pos hgh]

theorem mulGen_cons_eq (g : Gen ι) (m : Mono ι) : mulGen g (g :: m) = 0 := by
  rw [mulGen, if_pos rfl]

/-- Multiplying something above `k` by `g > k` stays above `k`. -/
theorem mulGen_above (k g : Gen ι) (hkg : k < g) :
    ∀ m : Mono ι, (k :: m).Pairwise (· < ·) → mulGen g m ∈ above k := by
  intro m
  induction m generalizing k with
  | nil =>
    intro _
    rw [mulGen]
    exact Finsupp.single_mem_supported _ _ (by simpa using hkg)
  | cons h m ih =>
    intro hm
    have hkh : k < h := (List.pairwise_cons.mp hm).1 h (by simp)
    have hhm := (List.pairwise_cons.mp hm).2
    have hkm : (k :: m).Pairwise (· < ·) := by
      refine List.pairwise_cons.mpr ⟨?_, (List.pairwise_cons.mp hhm).2⟩
      intro y hy; exact (List.pairwise_cons.mp hm).1 y (by simp [hy])
    rcases lt_trichotomy g h with hgh | rfl | hgh
    · rw [mulGen_cons_lt _ _ _ hgh]
      refine Finsupp.single_mem_supported _ _ ?_
      refine List.pairwise_cons.mpr ⟨?_, List.pairwise_cons.mpr ⟨?_, hhm⟩⟩
      · intro y hy
        rcases List.mem_cons.mp hy with rfl | hy
        · exact hkg
        · exact (List.pairwise_cons.mp hm).1 y hy
      · intro y hy
        rcases List.mem_cons.mp hy with rfl | hy
        · exact hgh
        · exact hgh.trans ((List.pairwise_cons.mp hhm).1 y hy)
    · rw [mulGen_cons_eq]; exact Submodule.zero_mem _
    · rw [mulGen_cons_gt _ _ _ hgh]
      refine Submodule.add_mem _ (Submodule.neg_mem _ ?_) (Submodule.smul_mem _ _ ?_)
      · exact consL_mem_above k h hkh _ (ih h hgh hhm)
      · exact Finsupp.single_mem_supported _ _ hkm

theorem mulGen_canon (g : Gen ι) :
    ∀ m : Mono ι, m.Pairwise (· < ·) → mulGen g m ∈ canon ι := by
  intro m hm
  cases m with
  | nil => rw [mulGen]; exact Finsupp.single_mem_supported _ _ (by simp)
  | cons h m =>
    rcases lt_trichotomy g h with hgh | rfl | hgh
    · rw [mulGen_cons_lt _ _ _ hgh]
      refine Finsupp.single_mem_supported _ _ (List.pairwise_cons.mpr ⟨?_, hm⟩)
      intro y hy
      rcases List.mem_cons.mp hy with rfl | hy
      · exact hgh
      · exact hgh.trans ((List.pairwise_cons.mp hm).1 y hy)
    · rw [mulGen_cons_eq]; exact Submodule.zero_mem _
    · rw [mulGen_cons_gt _ _ _ hgh]
      refine Submodule.add_mem _ (Submodule.neg_mem _ ?_) (Submodule.smul_mem _ _ ?_)
      · exact consL_mem_canon h _ (mulGen_above h g hgh m hm)
      · exact Finsupp.single_mem_supported _ _ (List.pairwise_cons.mp hm).2

theorem lmul_above (k g : Gen ι) (hkg : k < g) (x : Op ι) (hx : x ∈ above k) :
    lmul g x ∈ above k := lmul_mem g (mulGen_above k g hkg) x hx

theorem lmul_canon (g : Gen ι) (x : Op ι) (hx : x ∈ canon ι) : lmul g x ∈ canon ι :=
  lmul_mem g (mulGen_canon g) x hx

theorem lmul_of_above (k : Gen ι) (x : Op ι) (hx : x ∈ above k) : lmul k x = consL k x := by
  refine linear_ext_on (lmul k) (consL k) ?_ x hx
  intro m hm
  rw [lmul_single, one_smul, consL_single]
  cases m with
  | nil => rw [mulGen]
  | cons h m => rw [mulGen_cons_lt _ _ _ ((List.pairwise_cons.mp hm).1 h (by simp))]

theorem lmul_consL_gt (g k : Gen ι) (hkg : k < g) (x : Op ι) :
    lmul g (consL k x) = -consL k (lmul g x) + contraction g k • x := by
  refine linear_ext_on (s := Set.univ) ((lmul g) ∘ₗ consL k)
    (-(consL k ∘ₗ lmul g) + contraction g k • LinearMap.id) ?_ x (by simp)
  intro m _
  simp only [LinearMap.comp_apply, LinearMap.add_apply, LinearMap.neg_apply,
    LinearMap.smul_apply, LinearMap.id_apply, consL_single, lmul_single, one_smul]
  exact mulGen_cons_gt _ _ _ hkg

theorem lmul_consL_eq (k : Gen ι) (x : Op ι) : lmul k (consL k x) = 0 := by
  refine linear_ext_on (s := Set.univ) ((lmul k) ∘ₗ consL k) 0 ?_ x (by simp)
  intro m _
  simp only [LinearMap.comp_apply, consL_single, lmul_single, one_smul, LinearMap.zero_apply]
  exact mulGen_cons_eq _ _

theorem contraction_comm (g h : Gen ι) : contraction g h = contraction h g := by
  unfold contraction
  by_cases h1 : g.dag ≠ h.dag ∧ g.idx = h.idx
  · rw [if_pos h1, if_pos ⟨h1.1.symm, h1.2.symm⟩]
  · rw [if_neg h1, if_neg fun h2 => h1 ⟨h2.1.symm, h2.2.symm⟩]

theorem contraction_self (g : Gen ι) : contraction g g = 0 := by simp [contraction]

theorem lmul_car_mono (m : Mono ι) (hm : m.Pairwise (· < ·)) (g h : Gen ι) :
    lmul g (lmul h (single m 1)) + lmul h (lmul g (single m 1))
      = contraction g h • single m 1 := by
  induction m generalizing g h with
  | nil =>
    have e : ∀ g h : Gen ι, g < h →
        lmul g (lmul h (single [] 1)) + lmul h (lmul g (single [] 1))
          = contraction g h • single [] 1 := by
      intro g h hgh
      rw [lmul_single, lmul_single, one_smul, one_smul]
      simp only [mulGen, lmul_single, one_smul, if_neg hgh.ne, if_neg hgh.ne', if_pos hgh,
        if_neg (not_lt_of_gt hgh), mapDomain_single, contraction_comm h g]
      simp
    rcases lt_trichotomy g h with hgh | rfl | hgh
    · exact e g h hgh
    · rw [lmul_single, one_smul]
      simp [mulGen, lmul_single, contraction_self]
    · rw [add_comm, e h g hgh, contraction_comm]
  | cons k m ih =>
    have hm' := (List.pairwise_cons.mp hm).2
    have habove : (single m 1 : Op ι) ∈ above k := Finsupp.single_mem_supported _ _ hm
    have hk : (single (k :: m) 1 : Op ι) = consL k (single m 1) := (consL_single _ _ _).symm
    -- the symmetric case distinction
    have e : ∀ g h : Gen ι, g ≤ h →
        lmul g (lmul h (single (k :: m) 1)) + lmul h (lmul g (single (k :: m) 1))
          = contraction g h • single (k :: m) 1 := by
      intro g h hgh
      rcases lt_trichotomy g k with hgk | rfl | hgk
      · -- g below everything
        have hab : (single (k :: m) 1 : Op ι) ∈ above g := by
          refine Finsupp.single_mem_supported _ _ (List.pairwise_cons.mpr ⟨?_, hm⟩)
          intro y hy
          rcases List.mem_cons.mp hy with rfl | hy
          · exact hgk
          · exact hgk.trans ((List.pairwise_cons.mp hm).1 y hy)
        rw [lmul_of_above g _ hab]
        rcases hgh.lt_or_eq with hgh | rfl
        · rw [lmul_of_above g _ (lmul_above g h hgh _ hab), lmul_consL_gt _ _ hgh,
            contraction_comm h g]
          module
        · rw [lmul_of_above g _ hab, lmul_consL_eq, contraction_self]; simp
      · rcases hgh.lt_or_eq with hgh | rfl
        · rw [hk, lmul_consL_gt _ _ hgh, lmul_consL_eq, map_zero, add_zero, map_add, map_neg,
            lmul_consL_eq, map_smul, lmul_of_above g _ habove, contraction_comm h g]
          simp
        · rw [hk, lmul_consL_eq, contraction_self]; simp
      · have hkh : k < h := lt_of_lt_of_le hgk hgh
        have hA : ∀ g h : Gen ι, k < g → k < h → lmul g (lmul h (single (k :: m) 1))
            = consL k (lmul g (lmul h (single m 1))) - contraction g k • lmul h (single m 1)
              + contraction h k • lmul g (single m 1) := by
          intro g h hg hh
          rw [hk, lmul_consL_gt _ _ hh, map_add, map_neg, lmul_consL_gt _ _ hg, map_smul]
          module
        rw [hA g h hgk hkh, hA h g hkh hgk]
        have := congrArg (consL k) (ih hm' g h)
        rw [map_add, map_smul] at this
        rw [hk, ← this]
        module
    rcases le_total g h with hgh | hgh
    · exact e g h hgh
    · rw [add_comm, e h g hgh, contraction_comm]

/-- Left multiplication satisfies the anticommutation relations. -/
theorem lmul_car (x : Op ι) (hx : x ∈ canon ι) (g h : Gen ι) :
    lmul g (lmul h x) + lmul h (lmul g x) = contraction g h • x := by
  refine linear_ext_on ((lmul g) ∘ₗ (lmul h) + (lmul h) ∘ₗ (lmul g))
    (contraction g h • LinearMap.id) ?_ x hx
  intro m hm
  simpa using lmul_car_mono m hm g h

/-! ### Normal forms -/

theorem nf_nil : nf ([] : Mono ι) = single [] 1 := rfl

theorem nf_cons (g : Gen ι) (l : Mono ι) : nf (g :: l) = lmul g (nf l) := rfl

theorem nf_canon (l : Mono ι) : nf l ∈ canon ι := by
  induction l with
  | nil => exact Finsupp.single_mem_supported _ _ (by simp)
  | cons g l ih => rw [nf_cons]; exact lmul_canon g _ ih

/-- A normal ordered monomial is its own normal form. -/
theorem nf_sorted (m : Mono ι) (hm : m.Pairwise (· < ·)) : nf m = single m 1 := by
  induction m with
  | nil => rfl
  | cons g m ih =>
    rw [nf_cons, ih (List.pairwise_cons.mp hm).2,
      lmul_of_above g _ (Finsupp.single_mem_supported _ _ hm), consL_single]

/-! ### Evaluation -/

section Eval

variable {A : Type*} [Ring A] [Algebra ℂ A]

/-- `eval` as a linear map. -/
def evalL (e : Gen ι → A) : Op ι →ₗ[ℂ] A :=
  Finsupp.linearCombination ℂ fun m : Mono ι => (m.map e).prod

theorem eval_eq (e : Gen ι → A) (x : Op ι) : eval e x = evalL e x := by
  simp [eval, evalL, Finsupp.linearCombination_apply]

theorem evalL_single (e : Gen ι → A) (m : Mono ι) (a : ℂ) :
    evalL e (single m a) = a • (m.map e).prod := by
  simp [evalL]

theorem evalL_consL (e : Gen ι → A) (k : Gen ι) (x : Op ι) :
    evalL e (consL k x) = e k * evalL e x := by
  refine linear_ext_on (s := Set.univ) ((evalL e) ∘ₗ consL k)
    ((LinearMap.mulLeft ℂ (e k)) ∘ₗ evalL e) ?_ x (by simp)
  intro m _
  simp [consL_single, evalL_single]

theorem car_swap {e : Gen ι → A} (he : CAR e) (g h : Gen ι) :
    e g * e h = -(e h * e g) + contraction g h • (1 : A) := by
  rw [← he g h]; abel

theorem car_sq {e : Gen ι → A} (he : CAR e) (g : Gen ι) : e g * e g = 0 := by
  have := he g g
  rw [contraction_self, zero_smul, ← two_smul ℂ] at this
  exact (smul_eq_zero_iff_right (two_ne_zero)).mp this

theorem evalL_mulGen {e : Gen ι → A} (he : CAR e) (g : Gen ι) (m : Mono ι) :
    evalL e (mulGen g m) = e g * (m.map e).prod := by
  induction m with
  | nil => simp [mulGen, evalL_single]
  | cons h m ih =>
    rcases lt_trichotomy g h with hgh | rfl | hgh
    · rw [mulGen_cons_lt _ _ _ hgh, evalL_single]; simp
    · rw [mulGen_cons_eq, map_zero, List.map_cons, List.prod_cons, ← mul_assoc, car_sq he,
        zero_mul]
    · rw [mulGen_cons_gt _ _ _ hgh, map_add, map_neg, evalL_consL, ih, map_smul, evalL_single,
        one_smul, List.map_cons, List.prod_cons, ← mul_assoc (e g), car_swap he g h, add_mul,
        neg_mul, smul_mul_assoc, one_mul, mul_assoc]

theorem evalL_lmul {e : Gen ι → A} (he : CAR e) (g : Gen ι) (x : Op ι) :
    evalL e (lmul g x) = e g * evalL e x := by
  refine linear_ext_on (s := Set.univ) ((evalL e) ∘ₗ lmul g)
    ((LinearMap.mulLeft ℂ (e g)) ∘ₗ evalL e) ?_ x (by simp)
  intro m _
  simp [lmul_single, evalL_single, evalL_mulGen he]

/-- Normal ordering does not change the value. -/
theorem evalL_nf {e : Gen ι → A} (he : CAR e) (l : Mono ι) :
    evalL e (nf l) = (l.map e).prod := by
  induction l with
  | nil => simp [nf_nil, evalL_single]
  | cons g l ih => rw [nf_cons, evalL_lmul he, ih, List.map_cons, List.prod_cons]

theorem evalL_mul {e : Gen ι → A} (he : CAR e) (x y : Op ι) :
    evalL e (mul x y) = evalL e x * evalL e y := by
  unfold mul
  rw [Finsupp.sum, map_sum]
  have h1 : evalL e x = x.sum fun m a => a • (m.map e).prod := by rw [← eval_eq]; rfl
  have h2 : evalL e y = y.sum fun m a => a • (m.map e).prod := by rw [← eval_eq]; rfl
  rw [h1, h2, Finsupp.sum, Finset.sum_mul]
  refine Finset.sum_congr rfl fun m _ => ?_
  rw [Finsupp.sum, map_sum, Finsupp.sum, Finset.mul_sum]
  refine Finset.sum_congr rfl fun m' _ => ?_
  rw [map_smul, evalL_nf he, List.map_append, List.prod_append, smul_mul_smul_comm]

end Eval

/-! ### The regular representation, and extensionality -/

instance : Ring (Module.End ℂ (canon ι)) := Module.End.instRing (R := ℂ) (N₁ := canon ι)

instance : Algebra ℂ (Module.End ℂ (canon ι)) := Module.End.instAlgebra ℂ ℂ (canon ι)

/-- Left multiplication on canonical operators. -/
def reg (g : Gen ι) : Module.End ℂ (canon ι) :=
  (lmul g).restrict fun x hx => lmul_canon g x hx

theorem reg_car : CAR (reg (ι := ι)) := by
  intro g h
  ext1 x
  apply Subtype.ext
  exact lmul_car x.1 x.2 g h

/-- The identity operator, as a canonical one. -/
def vac : canon ι := ⟨single [] 1, Finsupp.single_mem_supported _ _ (by simp)⟩

theorem reg_prod (l : Mono ι) : (((l.map reg).prod : Module.End ℂ (canon ι)) vac).1 = nf l := by
  induction l with
  | nil => rfl
  | cons g l ih =>
    rw [List.map_cons, List.prod_cons, nf_cons, ← ih]
    rfl

/-- Evaluating a canonical operator in the regular representation gives it back. -/
theorem evalL_reg (x : Op ι) (hx : x ∈ canon ι) : (evalL reg x vac).1 = x := by
  refine linear_ext_on
    ((canon ι).subtype ∘ₗ (LinearMap.applyₗ (vac : canon ι)) ∘ₗ (evalL reg)) LinearMap.id ?_ x hx
  intro m hm
  simp only [LinearMap.comp_apply, LinearMap.applyₗ_apply_apply, evalL_single, one_smul,
    Submodule.subtype_apply, LinearMap.id_apply]
  rw [reg_prod, nf_sorted m hm]

/-- Two canonical operators with the same value in every algebra satisfying the
anticommutation relations are the same operator. -/
theorem ext_car (x y : Op ι) (hx : x ∈ canon ι) (hy : y ∈ canon ι)
    (h : ∀ (A : Type) [Ring A] [Algebra ℂ A] (e : Gen ι → A), CAR e → evalL e x = evalL e y) :
    x = y := by
  rw [← evalL_reg x hx, ← evalL_reg y hy, h _ reg reg_car]

theorem mul_canon (x y : Op ι) : mul x y ∈ canon ι := by
  unfold mul
  refine Submodule.sum_mem _ fun m _ => Submodule.sum_mem _ fun m' _ => ?_
  exact Submodule.smul_mem _ _ (nf_canon _)

theorem mul_assoc' (x y z : Op ι) : mul (mul x y) z = mul x (mul y z) := by
  apply ext_car _ _ (mul_canon _ _) (mul_canon _ _)
  intro A _ _ e he
  simp only [evalL_mul he, mul_assoc]

theorem elem_canon (g : Gen ι) : elem g ∈ canon ι :=
  Finsupp.single_mem_supported _ _ (by simp)

theorem one_canon : (one : Op ι) ∈ canon ι := Finsupp.single_mem_supported _ _ (by simp)

theorem evalL_elem {A : Type*} [Ring A] [Algebra ℂ A] (e : Gen ι → A) (g : Gen ι) :
    evalL e (elem g) = e g := by simp [elem, evalL_single]

theorem evalL_one {A : Type*} [Ring A] [Algebra ℂ A] (e : Gen ι → A) :
    evalL e (one : Op ι) = 1 := by simp [one, evalL_single]

/-! ### Evaluation when only some pairs can be exchanged -/

section Reorder

variable {A : Type*} [Ring A] [Algebra ℂ A]

/-- The relation used when `g h` is brought to normal order. -/
def Reorder (e : Gen ι → A) (g h : Gen ι) : Prop :=
  (g = h → e g * e g = 0) ∧ (h < g → e g * e h = -(e h * e g) + contraction g h • (1 : A))

theorem CAR.reorder {e : Gen ι → A} (he : CAR e) (g h : Gen ι) : Reorder e g h :=
  ⟨fun _ => car_sq he g, fun _ => car_swap he g h⟩

theorem HalfCAR.sq {e : Gen ι → A} (he : HalfCAR e) (g : Gen ι) : e g * e g = 0 := by
  have := he g g rfl
  rw [← two_smul ℂ] at this
  exact (smul_eq_zero_iff_right (two_ne_zero)).mp this

theorem dag_lt_of_lt {g h : Gen ι} (hlt : h < g) (hd : g.dag = true) : h.dag = true := by
  by_contra hh
  have hh' : h.dag = false := by simpa using hh
  have : h.key < g.key := hlt
  rw [Gen.key, Gen.key, if_pos hd, hh'] at this
  simp at this

/-- Creation operators standing left of annihilation operators. -/
def DagLeft (g h : Gen ι) : Prop := h.dag = true → g.dag = true

theorem HalfCAR.reorder {e : Gen ι → A} (he : HalfCAR e) (g h : Gen ι) (hd : DagLeft g h) :
    Reorder e g h := by
  refine ⟨fun _ => he.sq g, fun hlt => ?_⟩
  have hdag : g.dag = h.dag := by
    cases hg : g.dag with
    | true => rw [dag_lt_of_lt hlt hg]
    | false =>
      cases hh : h.dag with
      | false => rfl
      | true => rw [hd hh] at hg; cases hg
  have hc : contraction g h = 0 := by simp [contraction, hdag]
  rw [hc, zero_smul, add_zero, eq_neg_iff_add_eq_zero]
  exact he g h hdag

theorem mulGen_subset (g : Gen ι) (m : Mono ι) :
    mulGen g m ∈ Finsupp.supported ℂ ℂ {m' : Mono ι | m' ⊆ g :: m} := by
  induction m with
  | nil => rw [mulGen]; exact Finsupp.single_mem_supported _ _ (by simp)
  | cons h m ih =>
    rcases lt_trichotomy g h with hgh | rfl | hgh
    · rw [mulGen_cons_lt _ _ _ hgh]
      exact Finsupp.single_mem_supported _ _ (by simp)
    · rw [mulGen_cons_eq]; exact Submodule.zero_mem _
    · rw [mulGen_cons_gt _ _ _ hgh]
      refine Submodule.add_mem _ (Submodule.neg_mem _ ?_) (Submodule.smul_mem _ _ ?_)
      · refine supported_induction (p := fun x => consL h x ∈
          Finsupp.supported ℂ ℂ {m' : Mono ι | m' ⊆ g :: h :: m}) (by simp) ?_ ?_ _ ih
        · intro x y hx hy; rw [map_add]; exact Submodule.add_mem _ hx hy
        · intro m' hm' a
          rw [consL_single]
          refine Finsupp.single_mem_supported _ _ ?_
          intro y hy
          rcases List.mem_cons.mp hy with rfl | hy
          · simp
          · have := hm' hy
            simp only [List.mem_cons] at this ⊢
            tauto
      · refine Finsupp.single_mem_supported _ _ ?_
        intro y hy
        simp [hy]

theorem nf_subset (l : Mono ι) : nf l ∈ Finsupp.supported ℂ ℂ {m' : Mono ι | m' ⊆ l} := by
  induction l with
  | nil => exact Finsupp.single_mem_supported _ _ (by simp)
  | cons g l ih =>
    rw [nf_cons]
    refine lmul_mem g ?_ _ ih
    intro m hm
    refine supported_mono ?_ (mulGen_subset g m)
    intro m' hm'
    exact List.Subset.trans hm' (List.cons_subset_cons g hm)

theorem evalL_mulGen_of {e : Gen ι → A} (g : Gen ι) (m : Mono ι)
    (he : ∀ h ∈ m, Reorder e g h) :
    evalL e (mulGen g m) = e g * (m.map e).prod := by
  induction m with
  | nil => simp [mulGen, evalL_single]
  | cons h m ih =>
    have hh := he h (by simp)
    have ih := ih fun y hy => he y (by simp [hy])
    rcases lt_trichotomy g h with hgh | rfl | hgh
    · rw [mulGen_cons_lt _ _ _ hgh, evalL_single]; simp
    · rw [mulGen_cons_eq, map_zero, List.map_cons, List.prod_cons, ← mul_assoc, hh.1 rfl,
        zero_mul]
    · rw [mulGen_cons_gt _ _ _ hgh, map_add, map_neg, evalL_consL, ih, map_smul, evalL_single,
        one_smul, List.map_cons, List.prod_cons, ← mul_assoc (e g), hh.2 hgh, add_mul,
        neg_mul, smul_mul_assoc, one_mul, mul_assoc]

/-- Normal ordering a list does not change its value if every pair that may
have to be exchanged obeys its relation. -/
theorem evalL_nf_of {e : Gen ι → A} (l : Mono ι) (he : l.Pairwise (Reorder e)) :
    evalL e (nf l) = (l.map e).prod := by
  induction l with
  | nil => simp [nf_nil, evalL_single]
  | cons g l ih =>
    have h1 := (List.pairwise_cons.mp he).1
    rw [nf_cons, List.map_cons, List.prod_cons, ← ih (List.pairwise_cons.mp he).2]
    refine linear_ext_on ((evalL e) ∘ₗ lmul g)
      ((LinearMap.mulLeft ℂ (e g)) ∘ₗ evalL e) ?_ _ (nf_subset l)
    intro m hm
    simp only [LinearMap.comp_apply, lmul_single, one_smul, evalL_single,
      LinearMap.mulLeft_apply]
    exact evalL_mulGen_of g m fun h hh => h1 h (hm hh)

end Reorder

/-! ### Hermitian conjugation -/

/-- The conjugate elementary operator. -/
def flip (g : Gen ι) : Gen ι := ⟨!g.dag, g.idx⟩

theorem flip_flip (g : Gen ι) : flip (flip g) = g := by cases g; simp [flip]

theorem contraction_flip (g h : Gen ι) : contraction (flip g) (flip h) = contraction g h := by
  simp [contraction, flip]

theorem daggerMono_cons (g : Gen ι) (m : Mono ι) :
    daggerMono (g :: m) = daggerMono m ++ [flip g] := by
  simp [daggerMono, flip]

theorem daggerMono_daggerMono (m : Mono ι) : daggerMono (daggerMono m) = m := by
  simp only [daggerMono, ← List.map_reverse, List.reverse_reverse, List.map_map]
  conv_rhs => rw [← List.map_id m]
  refine List.map_congr_left fun g _ => ?_
  simp

section Dagger

variable {A : Type*} [Ring A] [Algebra ℂ A]

/-- Value of the conjugate operator. -/
def evalD (e : Gen ι → A) : Op ι →+ A :=
  Finsupp.liftAddHom fun m : Mono ι =>
    { toFun := fun a => (starRingEnd ℂ a) • ((daggerMono m).map e).prod
      map_zero' := by simp
      map_add' := fun a b => by simp [add_smul] }

theorem evalD_single (e : Gen ι → A) (m : Mono ι) (a : ℂ) :
    evalD e (single m a) = (starRingEnd ℂ a) • ((daggerMono m).map e).prod := by
  simp [evalD]

theorem evalD_smul (e : Gen ι → A) (a : ℂ) (x : Op ι) :
    evalD e (a • x) = (starRingEnd ℂ a) • evalD e x := by
  induction x using Finsupp.induction_linear with
  | zero => simp
  | add x y hx hy => rw [smul_add, map_add, map_add, hx, hy, smul_add]
  | single m b => rw [smul_single, evalD_single, evalD_single, smul_smul, smul_eq_mul, map_mul]

theorem evalD_consL (e : Gen ι → A) (k : Gen ι) (x : Op ι) :
    evalD e (consL k x) = evalD e x * e (flip k) := by
  induction x using Finsupp.induction_linear with
  | zero => simp
  | add x y hx hy => rw [map_add, map_add, map_add, hx, hy, add_mul]
  | single m b =>
    rw [consL_single, evalD_single, evalD_single, daggerMono_cons, List.map_append,
      List.prod_append]
    simp

theorem evalL_dagger {e : Gen ι → A} (he : CAR e) (x : Op ι) :
    evalL e (dagger x) = evalD e x := by
  unfold dagger
  rw [Finsupp.sum, map_sum]
  simp only [map_smul, evalL_nf he]
  simp [evalD, Finsupp.sum]

theorem evalD_mulGen {e : Gen ι → A} (he : CAR e) (g : Gen ι) (m : Mono ι) :
    evalD e (mulGen g m) = ((daggerMono m).map e).prod * e (flip g) := by
  induction m with
  | nil => simp [mulGen, evalD_single, daggerMono, flip]
  | cons h m ih =>
    rcases lt_trichotomy g h with hgh | rfl | hgh
    · rw [mulGen_cons_lt _ _ _ hgh, evalD_single, daggerMono_cons, List.map_append,
        List.prod_append]
      simp
    · rw [mulGen_cons_eq, map_zero, daggerMono_cons, List.map_append, List.prod_append]
      simp [mul_assoc, car_sq he]
    · rw [mulGen_cons_gt _ _ _ hgh, map_add, map_neg, evalD_consL, ih, evalD_smul, evalD_single,
        map_one, one_smul, daggerMono_cons, List.map_append, List.prod_append]
      simp only [List.map_cons, List.map_nil, List.prod_cons, List.prod_nil, mul_one]
      rw [mul_assoc _ (e (flip h)) (e (flip g)), car_swap he (flip h) (flip g), contraction_flip,
        contraction_comm h g, mul_add, mul_neg, mul_smul_comm, mul_one, mul_assoc]
      congr 2
      unfold contraction
      split_ifs <;> simp

theorem evalD_lmul {e : Gen ι → A} (he : CAR e) (g : Gen ι) (x : Op ι) :
    evalD e (lmul g x) = evalD e x * e (flip g) := by
  induction x using Finsupp.induction_linear with
  | zero => simp
  | add x y hx hy => rw [map_add, map_add, map_add, hx, hy, add_mul]
  | single m b =>
    rw [lmul_single, evalD_smul, evalD_mulGen he, evalD_single, smul_mul_assoc]

theorem evalD_nf {e : Gen ι → A} (he : CAR e) (l : Mono ι) :
    evalD e (nf l) = ((daggerMono l).map e).prod := by
  induction l with
  | nil => simp [nf_nil, evalD_single]
  | cons g l ih =>
    rw [nf_cons, evalD_lmul he, ih, daggerMono_cons, List.map_append, List.prod_append]
    simp

end Dagger

theorem dagger_canon (x : Op ι) : dagger x ∈ canon ι := by
  unfold dagger
  exact Submodule.sum_mem _ fun m _ => Submodule.smul_mem _ _ (nf_canon _)

theorem dagger_nf (l : Mono ι) : dagger (nf l) = nf (daggerMono l) := by
  apply ext_car _ _ (dagger_canon _) (nf_canon _)
  intro A _ _ e he
  rw [evalL_dagger he, evalD_nf he, evalL_nf he]

theorem dagger_add (x y : Op ι) : dagger (x + y) = dagger x + dagger y := by
  apply ext_car _ _ (dagger_canon _) (Submodule.add_mem _ (dagger_canon _) (dagger_canon _))
  intro A _ _ e he
  rw [map_add, evalL_dagger he, evalL_dagger he, evalL_dagger he, map_add]

theorem dagger_smul (a : ℂ) (x : Op ι) : dagger (a • x) = (starRingEnd ℂ a) • dagger x := by
  apply ext_car _ _ (dagger_canon _) (Submodule.smul_mem _ _ (dagger_canon _))
  intro A _ _ e he
  rw [map_smul, evalL_dagger he, evalL_dagger he, evalD_smul]

theorem dagger_sum {κ : Type*} (s : Finset κ) (f : κ → Op ι) :
    dagger (∑ i ∈ s, f i) = ∑ i ∈ s, dagger (f i) := by
  classical
  induction s using Finset.induction_on with
  | empty => simp [dagger]
  | insert i s hi ih => rw [Finset.sum_insert hi, Finset.sum_insert hi, dagger_add, ih]

/-- Conjugating twice gives back a canonical operator. -/
theorem dagger_dagger (x : Op ι) (hx : x ∈ canon ι) : dagger (dagger x) = x := by
  refine supported_induction (p := fun x => dagger (dagger x) = x) (by simp [dagger]) ?_ ?_ x hx
  · intro x y hx hy; rw [dagger_add, dagger_add, hx, hy]
  · intro m hm a
    have : (single m a : Op ι) = a • nf m := by rw [nf_sorted m hm]; simp
    rw [this, dagger_smul, dagger_nf, dagger_smul, dagger_nf, daggerMono_daggerMono]
    simp

theorem mul_nf (l l' : Mono ι) : mul (nf l) (nf l') = nf (l ++ l') := by
  apply ext_car _ _ (mul_canon _ _) (nf_canon _)
  intro A _ _ e he
  rw [evalL_mul he, evalL_nf he, evalL_nf he, evalL_nf he, List.map_append, List.prod_append]

end Verif.Operators
