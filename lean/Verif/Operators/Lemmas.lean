import Verif.Operators.Model
import Verif.Operators.LibraryLemmas
import Mathlib.Algebra.BigOperators.Fin
import Mathlib.Tactic.Ring
import Mathlib.Tactic.LinearCombination
import Mathlib.Data.Fintype.Prod
import Mathlib.Algebra.BigOperators.Ring.Finset

/-! # Lemmas for the operator utilities -/

set_option linter.unusedSectionVars false

noncomputable section

namespace Verif.Operators

open Finsupp

variable {ι : Type} [LinearOrder ι]

theorem foldl_add_eq {κ M : Type*} [AddCommMonoid M] (l : List κ) (f : κ → M) (H : M) :
    l.foldl (fun H i => H + f i) H = H + (l.map f).sum := by
  induction l generalizing H with
  | nil => simp
  | cons a l ih => rw [List.foldl_cons, ih, List.map_cons, List.sum_cons, add_assoc]

theorem foldl_finRange_add {n : ℕ} {M : Type*} [AddCommMonoid M] (f : Fin n → M) (H : M) :
    (List.finRange n).foldl (fun H i => H + f i) H = H + ∑ i, f i := by
  rw [foldl_add_eq, Fin.sum_univ_def]

/-! ### Index look up -/

theorem lookup_get (fs : List ι) (hnd : fs.Nodup) (i : Fin fs.length) :
    lookup fs (fs.get i) = some i := by
  unfold lookup
  rw [List.finIdxOf?_eq_some_iff]
  refine ⟨rfl, fun j hj h => ?_⟩
  exact (ne_of_lt hj) (hnd.injective_get h)

theorem lookup_some (fs : List ι) (t : ι) (i : Fin fs.length) (h : lookup fs t = some i) :
    fs.get i = t := by
  unfold lookup at h
  rw [List.finIdxOf?_eq_some_iff] at h
  exact h.1

theorem lookup_none (fs : List ι) (t : ι) (h : lookup fs t = none) : t ∉ fs := by
  unfold lookup at h
  rwa [List.finIdxOf?_eq_none_iff] at h

theorem lookup_mem (fs : List ι) (t : ι) (h : t ∈ fs) : ∃ i, lookup fs t = some i := by
  cases h1 : lookup fs t with
  | none => exact absurd h (lookup_none fs t h1)
  | some i => exact ⟨i, rfl⟩

/-! ### Enumerations -/

/-- Coefficient of a monomial in a list of terms. -/
def coefOf (ts : List (Mono ι × ℂ)) (m : Mono ι) : ℂ :=
  (ts.map fun t => if t.1 = m then t.2 else 0).sum

theorem coefOf_not_mem (ts : List (Mono ι × ℂ)) (m : Mono ι) (h : m ∉ ts.map Prod.fst) :
    coefOf ts m = 0 := by
  unfold coefOf
  apply List.sum_eq_zero
  intro a ha
  obtain ⟨t, ht, rfl⟩ := List.mem_map.mp ha
  rw [if_neg]
  rintro rfl
  exact h (List.mem_map.mpr ⟨t, ht, rfl⟩)

theorem coefOf_mem (ts : List (Mono ι × ℂ)) (hnd : (ts.map Prod.fst).Nodup) (t : Mono ι × ℂ)
    (ht : t ∈ ts) : coefOf ts t.1 = t.2 := by
  induction ts with
  | nil => simp at ht
  | cons u ts ih =>
    rw [List.map_cons, List.nodup_cons] at hnd
    have hc : coefOf (u :: ts) t.1 = (if u.1 = t.1 then u.2 else 0) + coefOf ts t.1 := by
      simp [coefOf]
    rw [hc]
    rcases List.mem_cons.mp ht with rfl | ht
    · rw [if_pos rfl, coefOf_not_mem ts _ hnd.1, add_zero]
    · rw [if_neg, zero_add, ih hnd.2 ht]
      intro h
      exact hnd.1 (h ▸ List.mem_map.mpr ⟨t, ht, rfl⟩)

theorem Enumerates.coefOf_eq {ts : List (Mono ι × ℂ)} {x : Op ι} (h : Enumerates ts x)
    (m : Mono ι) : coefOf ts m = x m := by
  by_cases hm : x m = 0
  · rw [hm, coefOf_not_mem]
    intro hmem
    obtain ⟨t, ht, rfl⟩ := List.mem_map.mp hmem
    have := (h.2 t.1 t.2).mp ht
    exact this.1 (this.2 ▸ hm)
  · exact coefOf_mem ts h.1 (m, x m) ((h.2 m (x m)).mpr ⟨hm, rfl⟩)

theorem Enumerates.mem {ts : List (Mono ι × ℂ)} {x : Op ι} (h : Enumerates ts x)
    (t : Mono ι × ℂ) (ht : t ∈ ts) : t.1 ∈ x.support ∧ x t.1 = t.2 := by
  have := (h.2 t.1 t.2).mp ht
  exact ⟨by rw [mem_support_iff, this.2]; exact this.1, this.2⟩

/-- Every operator can be iterated over. -/
theorem exists_enumerates (x : Op ι) : ∃ ts, Enumerates ts x := by
  refine ⟨x.support.toList.map fun m => (m, x m), ?_, ?_⟩
  · rw [List.map_map]
    have : (Prod.fst ∘ fun m => (m, x m)) = (id : Mono ι → Mono ι) := rfl
    rw [this, List.map_id]
    exact Finset.nodup_toList _
  · intro m a
    rw [List.mem_map]
    constructor
    · rintro ⟨m', hm', h⟩
      obtain ⟨rfl, rfl⟩ := Prod.mk.inj h
      rw [Finset.mem_toList, mem_support_iff] at hm'
      exact ⟨hm', rfl⟩
    · rintro ⟨ha, rfl⟩
      exact ⟨m, by rwa [Finset.mem_toList, mem_support_iff], rfl⟩

theorem sum_single_apply (ts : List (Mono ι × ℂ)) (m : Mono ι) :
    ((ts.map fun t => (single t.1 t.2 : Op ι)).sum) m = coefOf ts m := by
  induction ts with
  | nil => simp [coefOf]
  | cons u ts ih =>
    rw [List.map_cons, List.sum_cons, Finsupp.add_apply, ih, Finsupp.single_apply]
    simp [coefOf]

/-- Summing over an enumeration. -/
theorem Enumerates.sum {ts : List (Mono ι × ℂ)} {x : Op ι} (h : Enumerates ts x)
    {V : Type*} [AddCommGroup V] [Module ℂ V] (f : Mono ι → V) :
    (ts.map fun t => t.2 • f t.1).sum = Finsupp.linearCombination ℂ f x := by
  have hx : x = (ts.map fun t => (single t.1 t.2 : Op ι)).sum := by
    ext m
    rw [← h.coefOf_eq m, sum_single_apply]
  rw [hx, map_list_sum, List.map_map]
  congr 1
  apply List.map_congr_left
  intro t _
  simp

/-! ### Products of elementary operators -/

theorem elem_eq_nf (g : Gen ι) : elem g = nf [g] := by
  rw [nf_sorted _ (by simp)]; rfl

theorem dagger_c (i : ι) : dagger (c i) = elem ⟨true, i⟩ := by
  unfold c
  rw [elem_eq_nf, dagger_nf, elem_eq_nf]
  rfl

theorem mul_add' (x y z : Op ι) : mul x (y + z) = mul x y + mul x z := by
  apply ext_car _ _ (mul_canon _ _) (Submodule.add_mem _ (mul_canon _ _) (mul_canon _ _))
  intro A _ _ e he
  rw [evalL_mul he, map_add, map_add, mul_add, evalL_mul he, evalL_mul he]

theorem smul_mul' (a : ℂ) (x y : Op ι) : mul (a • x) y = a • mul x y := by
  apply ext_car _ _ (mul_canon _ _) (Submodule.smul_mem _ _ (mul_canon _ _))
  intro A _ _ e he
  rw [evalL_mul he, map_smul, map_smul, evalL_mul he, smul_mul_assoc]

/-- The monomial `c^+_i c_j`. -/
def K2 (fs : List ι) (i j : Fin fs.length) : Mono ι := [⟨true, fs.get i⟩, ⟨false, fs.get j⟩]

/-- The monomial `c^+_i c^+_j c_k c_l`. -/
def K4 (fs : List ι) (i j k l : Fin fs.length) : Mono ι :=
  [⟨true, fs.get i⟩, ⟨true, fs.get j⟩, ⟨false, fs.get k⟩, ⟨false, fs.get l⟩]

theorem K2_inj (fs : List ι) (hnd : fs.Nodup) (i j i' j' : Fin fs.length)
    (h : K2 fs i j = K2 fs i' j') : i = i' ∧ j = j' := by
  simp only [K2, List.cons.injEq, Gen.mk.injEq, true_and, and_true] at h
  exact ⟨hnd.injective_get h.1, hnd.injective_get h.2⟩

theorem K4_inj (fs : List ι) (hnd : fs.Nodup) (i j k l i' j' k' l' : Fin fs.length)
    (h : K4 fs i j k l = K4 fs i' j' k' l') : i = i' ∧ j = j' ∧ k = k' ∧ l = l' := by
  simp only [K4, List.cons.injEq, Gen.mk.injEq, true_and, and_true] at h
  exact ⟨hnd.injective_get h.1, hnd.injective_get h.2.1, hnd.injective_get h.2.2.1,
    hnd.injective_get h.2.2.2⟩

theorem dag_lt (i j : ι) : (⟨true, i⟩ : Gen ι) < ⟨false, j⟩ := by
  change Gen.key (⟨true, i⟩ : Gen ι) < Gen.key (⟨false, j⟩ : Gen ι)
  simp [Gen.key]

theorem dag_lt_dag (i j : ι) : (⟨true, i⟩ : Gen ι) < ⟨true, j⟩ ↔ i < j := by
  change Gen.key (⟨true, i⟩ : Gen ι) < Gen.key (⟨true, j⟩ : Gen ι) ↔ _
  simp [Gen.key]

theorem ann_lt_ann (i j : ι) : (⟨false, i⟩ : Gen ι) < ⟨false, j⟩ ↔ j < i := by
  change Gen.key (⟨false, i⟩ : Gen ι) < Gen.key (⟨false, j⟩ : Gen ι) ↔ _
  simp [Gen.key]

theorem K2_sorted (fs : List ι) (i j : Fin fs.length) : (K2 fs i j).Pairwise (· < ·) := by
  simp [K2, dag_lt]

theorem K4_sorted (fs : List ι) (i j k l : Fin fs.length) :
    (K4 fs i j k l).Pairwise (· < ·) ↔ fs.get i < fs.get j ∧ fs.get l < fs.get k := by
  simp [K4, dag_lt, dag_lt_dag, ann_lt_ann]

theorem quadLoop_eq (fs : List ι) (h : Fin fs.length → Fin fs.length → ℂ) :
    quadLoop fs h = ∑ i, ∑ j, h i j • nf (K2 fs i j) := by
  unfold quadLoop
  have : ∀ i j, mul (h i j • dagger (c (fs.get i))) (c (fs.get j)) = h i j • nf (K2 fs i j) := by
    intro i j
    rw [smul_mul', dagger_c, c, elem_eq_nf, elem_eq_nf, mul_nf]
    rfl
  simp only [this, foldl_finRange_add]
  rw [zero_add]

theorem quadLoop_eq_single (fs : List ι) (h : Fin fs.length → Fin fs.length → ℂ) :
    quadLoop fs h = ∑ i, ∑ j, (single (K2 fs i j) (h i j) : Op ι) := by
  rw [quadLoop_eq]
  refine Finset.sum_congr rfl fun i _ => Finset.sum_congr rfl fun j _ => ?_
  rw [nf_sorted _ (K2_sorted fs i j)]
  simp

theorem quadLoop_apply (fs : List ι) (hnd : fs.Nodup) (h : Fin fs.length → Fin fs.length → ℂ)
    (i j : Fin fs.length) : quadLoop fs h (K2 fs i j) = h i j := by
  rw [quadLoop_eq_single, Finsupp.finsetSum_apply, Finset.sum_eq_single i,
    Finsupp.finsetSum_apply, Finset.sum_eq_single j]
  · simp
  · intro j' _ hj
    rw [Finsupp.single_apply, if_neg]
    intro hk; exact hj (K2_inj fs hnd _ _ _ _ hk).2
  · simp
  · intro i' _ hi
    rw [Finsupp.finsetSum_apply]
    apply Finset.sum_eq_zero
    intro j' _
    rw [Finsupp.single_apply, if_neg]
    intro hk; exact hi (K2_inj fs hnd _ _ _ _ hk).1
  · simp

theorem quadLoop_apply_of_ne (fs : List ι) (h : Fin fs.length → Fin fs.length → ℂ)
    (m : Mono ι) (hm : ∀ i j, m ≠ K2 fs i j) : quadLoop fs h m = 0 := by
  rw [quadLoop_eq_single, Finsupp.finsetSum_apply]
  apply Finset.sum_eq_zero
  intro i _
  rw [Finsupp.finsetSum_apply]
  apply Finset.sum_eq_zero
  intro j _
  rw [Finsupp.single_apply, if_neg (hm i j).symm]

theorem operatorFromQuarticTensor_eq (fs : List ι) (h : T4 fs.length) :
    operatorFromQuarticTensor fs h = ∑ i, ∑ j, ∑ k, ∑ l, h i j k l • nf (K4 fs i j k l) := by
  unfold operatorFromQuarticTensor
  have : ∀ i j k l, mul (mul (mul (h i j k l • dagger (c (fs.get i))) (dagger (c (fs.get j))))
      (c (fs.get k))) (c (fs.get l)) = h i j k l • nf (K4 fs i j k l) := by
    intro i j k l
    rw [smul_mul', smul_mul', smul_mul', dagger_c, dagger_c, c, c, elem_eq_nf, elem_eq_nf,
      elem_eq_nf, elem_eq_nf, mul_nf, mul_nf, mul_nf]
    rfl
  simp only [this, foldl_finRange_add]
  rw [zero_add]

/-! ### Symmetries of the quartic monomials -/

theorem nf_swap_dag (fs : List ι) (i j k l : Fin fs.length) :
    nf (K4 fs j i k l) = -nf (K4 fs i j k l) := by
  apply ext_car _ _ (nf_canon _) (Submodule.neg_mem _ (nf_canon _))
  intro A _ _ e he
  rw [map_neg, evalL_nf he, evalL_nf he]
  simp only [K4, List.map_cons, List.map_nil, List.prod_cons, List.prod_nil, mul_one]
  rw [← mul_assoc, car_swap he, contraction]
  simp [mul_assoc]

theorem nf_swap_ann (fs : List ι) (i j k l : Fin fs.length) :
    nf (K4 fs i j l k) = -nf (K4 fs i j k l) := by
  apply ext_car _ _ (nf_canon _) (Submodule.neg_mem _ (nf_canon _))
  intro A _ _ e he
  rw [map_neg, evalL_nf he, evalL_nf he]
  simp only [K4, List.map_cons, List.map_nil, List.prod_cons, List.prod_nil, mul_one]
  rw [car_swap he ⟨false, fs.get l⟩, contraction]
  simp

theorem nf_eq_dag (fs : List ι) (i k l : Fin fs.length) : nf (K4 fs i i k l) = 0 := by
  have := nf_swap_dag fs i i k l
  rwa [eq_neg_iff_add_eq_zero, ← two_smul ℂ, smul_eq_zero_iff_right two_ne_zero] at this

theorem nf_eq_ann (fs : List ι) (i j k : Fin fs.length) : nf (K4 fs i j k k) = 0 := by
  have := nf_swap_ann fs i j k k
  rwa [eq_neg_iff_add_eq_zero, ← two_smul ℂ, smul_eq_zero_iff_right two_ne_zero] at this

theorem dagger_nf_K4 (fs : List ι) (i j k l : Fin fs.length) :
    dagger (nf (K4 fs i j k l)) = nf (K4 fs l k j i) := by
  rw [dagger_nf]
  rfl

theorem daggerK2 (fs : List ι) (i j : Fin fs.length) :
    dagger (nf (K2 fs i j)) = nf (K2 fs j i) := by
  rw [dagger_nf]
  rfl

theorem permSym_eq {n : ℕ} (U : T4 n) (i j k l : Fin n) :
    permSym U i j k l = 1 / 4 * (U i j k l - U j i k l - U i j l k + U j i l k) := by
  simp only [permSym]; ring

theorem conjSym_eq {n : ℕ} (U : T4 n) (i j k l : Fin n) :
    conjSym U i j k l = 1 / 2 * (U i j k l + starRingEnd ℂ (U l k j i)) := rfl

theorem pauliSym_eq {n : ℕ} (U : T4 n) (i j k l : Fin n) :
    pauliSym U i j k l = if i = j ∨ k = l then 0 else U i j k l := by
  have key : ∀ (r : List (Fin n)) (V : T4 n),
      (r.foldl (fun V a =>
        let V1 : T4 n := fun i j k l => if i = a ∧ j = a then 0 else V i j k l
        fun i j k l => if k = a ∧ l = a then 0 else V1 i j k l) V) i j k l
      = if (i = j ∧ i ∈ r) ∨ (k = l ∧ k ∈ r) then 0 else V i j k l := by
    intro r
    induction r with
    | nil => intro V; simp
    | cons a r ih =>
      intro V
      rw [List.foldl_cons, ih]
      by_cases h1 : (i = j ∧ i ∈ r) ∨ (k = l ∧ k ∈ r)
      · rw [if_pos h1, if_pos]
        rcases h1 with h1 | h1
        · exact Or.inl ⟨h1.1, List.mem_cons_of_mem _ h1.2⟩
        · exact Or.inr ⟨h1.1, List.mem_cons_of_mem _ h1.2⟩
      · rw [if_neg h1]
        by_cases h2 : k = a ∧ l = a
        · simp only [if_pos h2]
          rw [if_pos]
          exact Or.inr ⟨h2.1.trans h2.2.symm, by simp [h2.1]⟩
        · simp only [if_neg h2]
          by_cases h3 : i = a ∧ j = a
          · rw [if_pos h3, if_pos]
            exact Or.inl ⟨h3.1.trans h3.2.symm, by simp [h3.1]⟩
          · rw [if_neg h3, if_neg]
            rintro (⟨h4, h5⟩ | ⟨h4, h5⟩)
            · rcases List.mem_cons.mp h5 with h5 | h5
              · exact h3 ⟨h5, h4 ▸ h5⟩
              · exact h1 (Or.inl ⟨h4, h5⟩)
            · rcases List.mem_cons.mp h5 with h5 | h5
              · exact h2 ⟨h5, h4 ▸ h5⟩
              · exact h1 (Or.inr ⟨h4, h5⟩)
  unfold pauliSym
  rw [key]
  simp [List.mem_finRange]

theorem opq_permSym (fs : List ι) (U : T4 fs.length) :
    operatorFromQuarticTensor fs (permSym U) = operatorFromQuarticTensor fs U := by
  rw [operatorFromQuarticTensor_eq, operatorFromQuarticTensor_eq]
  set N : Fin fs.length → Fin fs.length → Fin fs.length → Fin fs.length → Op ι :=
    fun i j k l => U i j k l • nf (K4 fs i j k l) with hN
  have h1 : ∀ i j k l, permSym U i j k l • nf (K4 fs i j k l)
      = (1 / 4 : ℂ) • (N i j k l + N j i k l + N i j l k + N j i l k) := by
    intro i j k l
    rw [permSym_eq]
    simp only [hN]
    rw [nf_swap_dag fs i j k l, nf_swap_ann fs i j k l, nf_swap_ann fs j i k l,
      nf_swap_dag fs i j k l]
    module
  simp only [h1, ← Finset.smul_sum, Finset.sum_add_distrib]
  have e1 : ∑ i, ∑ j, ∑ k, ∑ l, N j i k l = ∑ i, ∑ j, ∑ k, ∑ l, N i j k l := Finset.sum_comm
  have e2 : ∑ i, ∑ j, ∑ k, ∑ l, N i j l k = ∑ i, ∑ j, ∑ k, ∑ l, N i j k l :=
    Finset.sum_congr rfl fun i _ => Finset.sum_congr rfl fun j _ => Finset.sum_comm
  have e3 : ∑ i, ∑ j, ∑ k, ∑ l, N j i l k = ∑ i, ∑ j, ∑ k, ∑ l, N i j k l := by
    rw [Finset.sum_comm]; exact e2
  rw [e1, e2, e3]
  module

theorem dagger_opq (fs : List ι) (U : T4 fs.length) :
    dagger (operatorFromQuarticTensor fs U)
      = operatorFromQuarticTensor fs fun i j k l => starRingEnd ℂ (U l k j i) := by
  rw [operatorFromQuarticTensor_eq, operatorFromQuarticTensor_eq]
  simp only [dagger_sum, dagger_smul, dagger_nf_K4]
  -- reverse the order of the four sums
  rw [Finset.sum_comm]
  calc ∑ j, ∑ i, ∑ k, ∑ l, starRingEnd ℂ (U i j k l) • nf (K4 fs l k j i)
      = ∑ j, ∑ k, ∑ i, ∑ l, starRingEnd ℂ (U i j k l) • nf (K4 fs l k j i) :=
        Finset.sum_congr rfl fun j _ => Finset.sum_comm
    _ = ∑ j, ∑ k, ∑ l, ∑ i, starRingEnd ℂ (U i j k l) • nf (K4 fs l k j i) :=
        Finset.sum_congr rfl fun j _ => Finset.sum_congr rfl fun k _ => Finset.sum_comm
    _ = ∑ k, ∑ j, ∑ l, ∑ i, starRingEnd ℂ (U i j k l) • nf (K4 fs l k j i) := Finset.sum_comm
    _ = ∑ k, ∑ l, ∑ j, ∑ i, starRingEnd ℂ (U i j k l) • nf (K4 fs l k j i) :=
        Finset.sum_congr rfl fun j _ => Finset.sum_comm
    _ = ∑ l, ∑ k, ∑ j, ∑ i, starRingEnd ℂ (U i j k l) • nf (K4 fs l k j i) := Finset.sum_comm

theorem opq_add (fs : List ι) (U V : T4 fs.length) :
    operatorFromQuarticTensor fs (fun i j k l => U i j k l + V i j k l)
      = operatorFromQuarticTensor fs U + operatorFromQuarticTensor fs V := by
  simp only [operatorFromQuarticTensor_eq, add_smul, Finset.sum_add_distrib]

theorem opq_smul (fs : List ι) (a : ℂ) (U : T4 fs.length) :
    operatorFromQuarticTensor fs (fun i j k l => a * U i j k l)
      = a • operatorFromQuarticTensor fs U := by
  simp only [operatorFromQuarticTensor_eq, mul_smul, Finset.smul_sum]

theorem opq_conjSym (fs : List ι) (U : T4 fs.length) :
    operatorFromQuarticTensor fs (conjSym U)
      = (1 / 2 : ℂ) • (operatorFromQuarticTensor fs U
          + dagger (operatorFromQuarticTensor fs U)) := by
  rw [dagger_opq, ← opq_add, ← opq_smul]
  rfl

theorem opq_pauliSym (fs : List ι) (U : T4 fs.length) :
    operatorFromQuarticTensor fs (pauliSym U) = operatorFromQuarticTensor fs U := by
  rw [operatorFromQuarticTensor_eq, operatorFromQuarticTensor_eq]
  refine Finset.sum_congr rfl fun i _ => Finset.sum_congr rfl fun j _ =>
    Finset.sum_congr rfl fun k _ => Finset.sum_congr rfl fun l _ => ?_
  rw [pauliSym_eq]
  by_cases h1 : i = j
  · subst h1; rw [nf_eq_dag]; simp
  · by_cases h2 : k = l
    · subst h2; rw [nf_eq_ann]; simp
    · rw [if_neg (by tauto)]

/-! ### Extraction -/

theorem quadStep_ok (fs : List ι) (hnd : fs.Nodup) (h : Fin fs.length → Fin fs.length → ℂ)
    (t : Mono ι × ℂ) (hbad : ∀ g1 g2, t.1 = [g1, g2] → g1.dag = true ∧ g2.dag = false) :
    ∃ h', quadStep fs h t = .ok h' ∧
      ∀ i j, h' i j = if t.1 = K2 fs i j then t.2 else h i j := by
  obtain ⟨m, a⟩ := t
  by_cases hlen : ∃ g1 g2, m = [g1, g2]
  · obtain ⟨g1, g2, rfl⟩ := hlen
    obtain ⟨hd1, hd2⟩ := hbad g1 g2 rfl
    obtain ⟨d1, t1⟩ := g1
    obtain ⟨d2, t2⟩ := g2
    obtain rfl : d1 = true := hd1
    obtain rfl : d2 = false := hd2
    simp only [quadStep, and_self, if_true]
    cases h1 : lookup fs t1 with
    | none =>
      refine ⟨h, rfl, fun i j => ?_⟩
      rw [if_neg]
      intro hk
      simp only [K2, List.cons.injEq, Gen.mk.injEq, true_and, and_true] at hk
      exact lookup_none fs t1 h1 (hk.1 ▸ List.get_mem fs i)
    | some i0 =>
      cases h2 : lookup fs t2 with
      | none =>
        refine ⟨h, rfl, fun i j => ?_⟩
        rw [if_neg]
        intro hk
        simp only [K2, List.cons.injEq, Gen.mk.injEq, true_and, and_true] at hk
        exact lookup_none fs t2 h2 (hk.2 ▸ List.get_mem fs j)
      | some j0 =>
        refine ⟨_, rfl, fun i j => ?_⟩
        have e1 := lookup_some fs t1 i0 h1
        have e2 := lookup_some fs t2 j0 h2
        subst e1 e2
        simp only [set2]
        by_cases hij : i = i0 ∧ j = j0
        · rw [if_pos hij, hij.1, hij.2]; exact (if_pos rfl).symm
        · rw [if_neg hij, if_neg]
          intro hk
          have := K2_inj fs hnd i0 j0 i j hk
          exact hij ⟨this.1.symm, this.2.symm⟩
  · refine ⟨h, ?_, fun i j => ?_⟩
    · unfold quadStep
      split
      · rename_i g1 g2 he
        exact absurd ⟨g1, g2, he⟩ hlen
      · rfl
    · rw [if_neg]
      intro hk
      exact hlen ⟨_, _, hk⟩

theorem quadFold (fs : List ι) (hnd : fs.Nodup) (ts : List (Mono ι × ℂ)) :
    ∀ (h : Fin fs.length → Fin fs.length → ℂ) (done : List (Mono ι × ℂ)),
      ((done ++ ts).map Prod.fst).Nodup →
      (∀ i j, h i j = coefOf done (K2 fs i j)) →
      (∀ t ∈ ts, ∀ g1 g2, t.1 = [g1, g2] → g1.dag = true ∧ g2.dag = false) →
      ts.foldlM (quadStep fs) h = .ok fun i j => coefOf (done ++ ts) (K2 fs i j) := by
  induction ts with
  | nil =>
    intro h done _ hh _
    rw [List.append_nil]
    change Except.ok h = _
    congr 1
    funext i j
    exact hh i j
  | cons t ts ih =>
    intro h done hk hh hbad
    obtain ⟨h', h1, h2⟩ := quadStep_ok fs hnd h t (hbad t (by simp))
    rw [List.foldlM_cons, h1]
    have happ : done ++ t :: ts = (done ++ [t]) ++ ts := by simp
    rw [happ] at hk ⊢
    refine ih h' (done ++ [t]) hk ?_ fun u hu => hbad u (by simp [hu])
    intro i j
    rw [h2, hh]
    have hc : coefOf (done ++ [t]) (K2 fs i j)
        = coefOf done (K2 fs i j) + if t.1 = K2 fs i j then t.2 else 0 := by
      simp [coefOf]
    rw [hc]
    by_cases he : t.1 = K2 fs i j
    · rw [if_pos he, if_pos he, coefOf_not_mem, zero_add]
      intro hmem
      rw [List.map_append, List.map_append, List.nodup_append, List.nodup_append] at hk
      exact hk.1.2.2 _ hmem _ (by simp [he]) rfl
    · rw [if_neg he, if_neg he, add_zero]

/-- Extraction of the quadratic matrix: it reads off the coefficients. -/
theorem quadraticMatrix_ok (fs : List ι) (hnd : fs.Nodup) (x : Op ι) (ts : List (Mono ι × ℂ))
    (hts : Enumerates ts x)
    (hbad : ∀ m ∈ x.support, ∀ g1 g2, m = [g1, g2] → g1.dag = true ∧ g2.dag = false) :
    quadraticMatrixFromOperator fs ts = .ok fun i j => x (K2 fs i j) := by
  unfold quadraticMatrixFromOperator
  rw [quadFold fs hnd ts (fun _ _ => 0) [] (by simpa using hts.1) (by simp [coefOf])
    (fun t ht => hbad t.1 (hts.mem t ht).1)]
  congr 1
  funext i j
  rw [List.nil_append, hts.coefOf_eq]

/-- What the accumulated tensor is, in terms of the coefficients read so far. -/
def quartSpec (p : Bool) (fs : List ι) (y : Mono ι → ℂ) : T4 fs.length :=
  if p then permSym fun i j k l => y (K4 fs i j k l) else fun i j k l => y (K4 fs i j k l)

theorem quartWrite_spec (p : Bool) (fs : List ι) (hnd : fs.Nodup) (y : Mono ι → ℂ)
    (i j k l : Fin fs.length) (a : ℂ) (hij : fs.get i < fs.get j) (hlk : fs.get l < fs.get k)
    (hy0 : y (K4 fs i j k l) = 0)
    (hys : ∀ i j k l, ¬ (fs.get i < fs.get j ∧ fs.get l < fs.get k) → y (K4 fs i j k l) = 0) :
    quartWrite p (quartSpec p fs y) i j k l a
      = quartSpec p fs fun m => y m + if K4 fs i j k l = m then a else 0 := by
  have hK : ∀ i' j' k' l', K4 fs i j k l = K4 fs i' j' k' l'
      ↔ (i' = i ∧ j' = j ∧ k' = k ∧ l' = l) := by
    intro i' j' k' l'
    constructor
    · intro h
      obtain ⟨h1, h2, h3, h4⟩ := K4_inj fs hnd _ _ _ _ _ _ _ _ h
      exact ⟨h1.symm, h2.symm, h3.symm, h4.symm⟩
    · rintro ⟨rfl, rfl, rfl, rfl⟩; rfl
  have hne : i ≠ j := by rintro rfl; exact lt_irrefl _ hij
  have hne' : k ≠ l := by rintro rfl; exact lt_irrefl _ hlk
  have z1 : y (K4 fs j i k l) = 0 := hys _ _ _ _ fun h => lt_asymm h.1 hij
  have z2 : y (K4 fs j i l k) = 0 := hys _ _ _ _ fun h => lt_asymm h.1 hij
  have z3 : y (K4 fs i j l k) = 0 := hys _ _ _ _ fun h => lt_asymm h.2 hlk
  cases p with
  | false =>
    funext i' j' k' l'
    simp only [quartWrite, quartSpec, set4, hK, Bool.false_eq_true, if_false]
    split_ifs with h
    · obtain ⟨rfl, rfl, rfl, rfl⟩ := h
      rw [hy0, zero_add]
    · rw [add_zero]
  | true =>
    funext i' j' k' l'
    simp only [quartWrite, quartSpec, set4, if_true, permSym_eq, hK]
    by_cases h4 : i' = i ∧ j' = j ∧ k' = l ∧ l' = k
    · obtain ⟨rfl, rfl, rfl, rfl⟩ := h4
      simp [hne, hne', hne.symm, hne'.symm, hy0, z1, z2, z3]
    · by_cases h3 : i' = j ∧ j' = i ∧ k' = l ∧ l' = k
      · obtain ⟨rfl, rfl, rfl, rfl⟩ := h3
        simp [hne, hne', hne.symm, hne'.symm, hy0, z1, z2, z3]
      · by_cases h2 : i' = j ∧ j' = i ∧ k' = k ∧ l' = l
        · obtain ⟨rfl, rfl, rfl, rfl⟩ := h2
          simp [hne, hne', hne.symm, hne'.symm, hy0, z1, z2, z3]
        · by_cases h1 : i' = i ∧ j' = j ∧ k' = k ∧ l' = l
          · obtain ⟨rfl, rfl, rfl, rfl⟩ := h1
            simp [hne, hne', hne.symm, hne'.symm, hy0, z1, z2, z3]
          · rw [if_neg h4, if_neg h3, if_neg h2, if_neg h1, if_neg h1, if_neg (by tauto),
              if_neg (by tauto), if_neg (by tauto)]
            ring

/-- The dagger pattern the extraction insists on. -/
def GoodQuartic (m : Mono ι) : Prop :=
  ∀ g1 g2 g3 g4, m = [g1, g2, g3, g4] →
    g1.dag = true ∧ g2.dag = true ∧ g3.dag = false ∧ g4.dag = false

theorem quartStep_ok (p : Bool) (fs : List ι) (hnd : fs.Nodup) (done : List (Mono ι × ℂ))
    (t : Mono ι × ℂ) (hbad : GoodQuartic t.1)
    (hk : ((done ++ [t]).map Prod.fst).Nodup)
    (hs : ∀ u ∈ done ++ [t], u.1.Pairwise (· < ·)) :
    quartStep fs p (quartSpec p fs (coefOf done)) t
      = .ok (quartSpec p fs (coefOf (done ++ [t]))) := by
  have hc : coefOf (done ++ [t]) = fun m => coefOf done m + if t.1 = m then t.2 else 0 := by
    funext m; simp [coefOf]
  have hskip : (∀ i j k l, t.1 ≠ K4 fs i j k l) →
      quartSpec p fs (coefOf done) = quartSpec p fs (coefOf (done ++ [t])) := by
    intro h
    have : ∀ i j k l, coefOf (done ++ [t]) (K4 fs i j k l) = coefOf done (K4 fs i j k l) := by
      intro i j k l
      rw [hc]
      simp only [if_neg (h i j k l), add_zero]
    simp only [quartSpec, this]
  have h0 : coefOf done t.1 = 0 := by
    apply coefOf_not_mem
    intro hmem
    rw [List.map_append, List.nodup_append] at hk
    exact hk.2.2 _ hmem _ (by simp) rfl
  have hys : ∀ i j k l, ¬ (fs.get i < fs.get j ∧ fs.get l < fs.get k) →
      coefOf done (K4 fs i j k l) = 0 := by
    intro i j k l h
    apply coefOf_not_mem
    intro hmem
    obtain ⟨u, hu, he⟩ := List.mem_map.mp hmem
    have := hs u (List.mem_append_left _ hu)
    rw [he, K4_sorted] at this
    exact h this
  obtain ⟨m, a⟩ := t
  by_cases hlen : ∃ g1 g2 g3 g4, m = [g1, g2, g3, g4]
  · obtain ⟨⟨d1, t1⟩, ⟨d2, t2⟩, ⟨d3, t3⟩, ⟨d4, t4⟩, rfl⟩ := hlen
    obtain ⟨hd1, hd2, hd3, hd4⟩ := hbad _ _ _ _ rfl
    obtain rfl : d1 = true := hd1
    obtain rfl : d2 = true := hd2
    obtain rfl : d3 = false := hd3
    obtain rfl : d4 = false := hd4
    simp only [quartStep, and_self, if_true]
    have hno : ∀ t', t' = t1 ∨ t' = t2 ∨ t' = t3 ∨ t' = t4 → t' ∉ fs →
        ∀ i j k l, ([⟨true, t1⟩, ⟨true, t2⟩, ⟨false, t3⟩, ⟨false, t4⟩] : Mono ι)
          ≠ K4 fs i j k l := by
      intro t' ht' hmem i j k l hk
      simp only [K4, List.cons.injEq, Gen.mk.injEq, true_and, and_true] at hk
      obtain ⟨rfl, rfl, rfl, rfl⟩ := hk
      rcases ht' with rfl | rfl | rfl | rfl <;> exact hmem (List.get_mem fs _)
    cases h1 : lookup fs t1 with
    | none =>
      have := hskip (hno t1 (by simp) (lookup_none fs t1 h1))
      simp only [this]
    | some i =>
      cases h2 : lookup fs t2 with
      | none =>
        have := hskip (hno t2 (by simp) (lookup_none fs t2 h2))
        simp only [this]
      | some j =>
        cases h3 : lookup fs t3 with
        | none =>
          have := hskip (hno t3 (by simp) (lookup_none fs t3 h3))
          simp only [this]
        | some k =>
          cases h4 : lookup fs t4 with
          | none =>
            have := hskip (hno t4 (by simp) (lookup_none fs t4 h4))
            simp only [this]
          | some l =>
            have e1 := lookup_some fs t1 i h1
            have e2 := lookup_some fs t2 j h2
            have e3 := lookup_some fs t3 k h3
            have e4 := lookup_some fs t4 l h4
            subst e1 e2 e3 e4
            have hsort := hs (K4 fs i j k l, a) (List.mem_append_right _ (List.mem_singleton.mpr rfl))
            have hsort' := (K4_sorted fs i j k l).mp hsort
            have := quartWrite_spec p fs hnd (coefOf done) i j k l a hsort'.1 hsort'.2 h0 hys
            simp only
            rw [this, hc]
            rfl
  · have hm : ∀ i j k l, m ≠ K4 fs i j k l := fun i j k l hk => hlen ⟨_, _, _, _, hk⟩
    rw [← hskip hm]
    unfold quartStep
    split
    · rename_i g1 g2 g3 g4 he
      exact absurd ⟨g1, g2, g3, g4, he⟩ hlen
    · rfl

theorem quartFold (p : Bool) (fs : List ι) (hnd : fs.Nodup) (ts : List (Mono ι × ℂ)) :
    ∀ (done : List (Mono ι × ℂ)),
      ((done ++ ts).map Prod.fst).Nodup →
      (∀ u ∈ done ++ ts, u.1.Pairwise (· < ·)) →
      (∀ t ∈ ts, GoodQuartic t.1) →
      ts.foldlM (quartStep fs p) (quartSpec p fs (coefOf done))
        = .ok (quartSpec p fs (coefOf (done ++ ts))) := by
  induction ts with
  | nil => intro done _ _ _; rw [List.append_nil]; rfl
  | cons t ts ih =>
    intro done hk hs hbad
    have happ : done ++ t :: ts = (done ++ [t]) ++ ts := by simp
    rw [happ] at hk hs ⊢
    rw [List.foldlM_cons, quartStep_ok p fs hnd done t (hbad t (by simp)) ?_ ?_]
    · exact ih (done ++ [t]) hk hs fun u hu => hbad u (by simp [hu])
    · rw [List.map_append, List.nodup_append] at hk
      exact hk.1
    · exact fun u hu => hs u (List.mem_append_left _ hu)

/-- Extraction of the quartic tensor. -/
theorem quarticTensor_ok (p : Bool) (fs : List ι) (hnd : fs.Nodup) (x : Op ι)
    (hx : Canonical x) (ts : List (Mono ι × ℂ)) (hts : Enumerates ts x)
    (hbad : ∀ m ∈ x.support, GoodQuartic m) :
    quarticTensorFromOperator fs p ts = .ok (quartSpec p fs x) := by
  unfold quarticTensorFromOperator
  have h0 : (fun _ _ _ _ => 0 : T4 fs.length) = quartSpec p fs (coefOf []) := by
    funext i j k l
    cases p <;> simp [quartSpec, coefOf, permSym_eq]
  rw [h0, quartFold p fs hnd ts [] (by simpa using hts.1)
    (fun u hu => hx u.1 (hts.mem u (by simpa using hu)).1)
    (fun t ht => hbad t.1 (hts.mem t ht).1)]
  have : coefOf ([] ++ ts) = x := by
    funext m
    rw [List.nil_append, hts.coefOf_eq]
  rw [this]

/-- The extraction refuses other dagger patterns. -/
theorem quarticTensor_bad (p : Bool) (fs : List ι) (ts : List (Mono ι × ℂ)) (h : T4 fs.length)
    (t : Mono ι × ℂ) (ht : t ∈ ts) (hbad : ¬ GoodQuartic t.1) :
    ts.foldlM (quartStep fs p) h = .error .assertion := by
  induction ts generalizing h with
  | nil => simp at ht
  | cons u ts ih =>
    rw [List.foldlM_cons]
    cases hu : quartStep fs p h u with
    | error e => cases e; rfl
    | ok h' =>
      rcases List.mem_cons.mp ht with rfl | ht
      · exfalso
        apply hbad
        intro g1 g2 g3 g4 he
        unfold quartStep at hu
        rw [he] at hu
        simp only at hu
        by_contra hc
        rw [if_neg hc] at hu
        cases hu
      · exact ih h' ht

end Verif.Operators
