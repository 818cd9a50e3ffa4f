import Verif.Operators.SubstLemmas
import Mathlib.Tactic.FinCases
import Mathlib.LinearAlgebra.Matrix.Notation
import Mathlib.Tactic.NormNum

/-!
# C32 - C37: operators, interaction tensors and basis changes

The specifications below use the evaluation of an operator in *any* algebra
whose elementary operators obey the canonical anticommutation relations
(`CAR`), and equality of operators as stored objects.  Such algebras exist for
every index type (`reg_car`), and the values in them determine the stored
operator (`operators_ext`).
-/

set_option linter.unusedSectionVars false

noncomputable section

namespace Verif.Operators

open Finsupp hiding some

variable {ι : Type} [LinearOrder ι]

/-! ### The library model is the algebra of the anticommutation relations -/

/-- Two stored operators are equal as soon as they have the same value in every
algebra with the canonical anticommutation relations. -/
theorem operators_ext (x y : Op ι) (hx : Canonical x) (hy : Canonical y)
    (h : ∀ (A : Type) [Ring A] [Algebra ℂ A] (e : Gen ι → A), CAR e → eval e x = eval e y) :
    x = y := by
  apply ext_car x y ((mem_canon x).mpr hx) ((mem_canon y).mpr hy)
  intro A _ _ e he
  rw [← eval_eq, ← eval_eq, h A e he]

/-- The stored product evaluates to the product. -/
theorem operators_eval_mul {A : Type} [Ring A] [Algebra ℂ A] (e : Gen ι → A) (he : CAR e)
    (x y : Op ι) : eval e (mul x y) = eval e x * eval e y := by
  rw [eval_eq, eval_eq, eval_eq, evalL_mul he]

/-- There is an algebra with the relations in which no elementary operator vanishes. -/
theorem operators_car_exists :
    ∃ e : Gen ι → Module.End ℂ (canon ι), CAR e ∧ ∀ g, e g ≠ 0 := by
  refine ⟨reg, reg_car, fun g hg => ?_⟩
  have h1 := reg_prod [g]
  rw [List.map_cons, List.map_nil, List.prod_cons, List.prod_nil, mul_one, hg] at h1
  rw [nf_sorted [g] (by simp)] at h1
  have h2 := DFunLike.congr_fun h1 [g]
  simp at h2

/-! ### C32 -/

/-- C32: what `get_quadratic_operator` builds. -/
theorem C32_meaning (fs : List ι) (h : Fin fs.length → Fin fs.length → ℂ) (H : Op ι)
    (hH : getQuadraticOperator fs h = .ok H) {A : Type} [Ring A] [Algebra ℂ A] (e : Gen ι → A)
    (he : CAR e) :
    eval e H = ∑ i, ∑ j, h i j • (e ⟨true, fs.get i⟩ * e ⟨false, fs.get j⟩) := by
  unfold getQuadraticOperator at hH
  split_ifs at hH with hc
  obtain rfl : quadLoop fs h = H := Except.ok.inj hH
  rw [eval_eq, quadLoop_eq]
  simp only [map_sum, map_smul, evalL_nf he, K2, List.map_cons, List.map_nil, List.prod_cons,
    List.prod_nil, mul_one]

/-- C32: every hermitian matrix is accepted. -/
theorem C32_accepts (fs : List ι) (h : Fin fs.length → Fin fs.length → ℂ)
    (hh : ∀ i j, h i j = starRingEnd ℂ (h j i)) : ∃ H, getQuadraticOperator fs h = .ok H := by
  refine ⟨quadLoop fs h, ?_⟩
  unfold getQuadraticOperator
  rw [if_pos]
  intro i j
  rw [hh i j]
  norm_num

/-- C32: matrix -> operator -> matrix, for every accepted matrix. -/
theorem C32_matrix_roundtrip (fs : List ι) (hnd : fs.Nodup)
    (h : Fin fs.length → Fin fs.length → ℂ) (H : Op ι)
    (hH : getQuadraticOperator fs h = .ok H) (ts : List (Mono ι × ℂ)) (hts : Enumerates ts H) :
    quadraticMatrixFromOperator fs ts = .ok h := by
  unfold getQuadraticOperator at hH
  split_ifs at hH with hc
  obtain rfl : quadLoop fs h = H := Except.ok.inj hH
  rw [quadraticMatrix_ok fs hnd _ ts hts]
  · congr 1
    funext i j
    exact quadLoop_apply fs hnd h i j
  · intro m hm g1 g2 he
    by_contra hc
    rw [mem_support_iff] at hm
    apply hm
    apply quadLoop_apply_of_ne
    rintro i j rfl
    simp only [K2, List.cons.injEq, and_true] at he
    obtain ⟨rfl, rfl⟩ := he
    exact hc ⟨rfl, rfl⟩

/-- C32: operator -> matrix -> operator, for every self-adjoint quadratic operator
over the given elementary operators. -/
theorem C32_operator_roundtrip (fs : List ι) (hnd : fs.Nodup) (x : Op ι)
    (hx : ∀ m ∈ x.support, ∃ i ∈ fs, ∃ j ∈ fs, m = [⟨true, i⟩, ⟨false, j⟩])
    (hself : dagger x = x) (ts : List (Mono ι × ℂ)) (hts : Enumerates ts x) :
    ∃ h, quadraticMatrixFromOperator fs ts = .ok h ∧ getQuadraticOperator fs h = .ok x := by
  have hK : ∀ m ∈ x.support, ∃ i j, m = K2 fs i j := by
    intro m hm
    obtain ⟨i, hi, j, hj, rfl⟩ := hx m hm
    obtain ⟨i', rfl⟩ := List.get_of_mem hi
    obtain ⟨j', rfl⟩ := List.get_of_mem hj
    exact ⟨i', j', rfl⟩
  have hxq : x = quadLoop fs fun i j => x (K2 fs i j) := by
    ext m
    by_cases hm : ∃ i j, m = K2 fs i j
    · obtain ⟨i, j, rfl⟩ := hm
      rw [quadLoop_apply fs hnd]
    · rw [quadLoop_apply_of_ne]
      · by_contra h
        exact hm (hK m (mem_support_iff.mpr h))
      · rintro i j rfl
        exact hm ⟨i, j, rfl⟩
  have hherm : ∀ i j, x (K2 fs i j) = starRingEnd ℂ (x (K2 fs j i)) := by
    have hd : dagger x = quadLoop fs fun i j => starRingEnd ℂ (x (K2 fs j i)) := by
      conv_lhs => rw [hxq]
      rw [quadLoop_eq, quadLoop_eq]
      simp only [dagger_sum, dagger_smul, daggerK2]
      exact Finset.sum_comm
    intro i j
    have := congrArg (fun y : Op ι => y (K2 fs i j)) hd
    simp only [hself, quadLoop_apply fs hnd] at this
    exact this
  refine ⟨fun i j => x (K2 fs i j), ?_, ?_⟩
  · apply quadraticMatrix_ok fs hnd x ts hts
    intro m hm g1 g2 he
    obtain ⟨i, j, rfl⟩ := hK m hm
    simp only [K2, List.cons.injEq, and_true] at he
    obtain ⟨rfl, rfl⟩ := he
    exact ⟨rfl, rfl⟩
  · unfold getQuadraticOperator
    rw [if_pos, ← hxq]
    intro i j
    have hij := hherm i j
    simp only [← hij, sub_self]
    norm_num

/-- C32, example: two orbitals, a hermitian matrix with a complex hopping. -/
example : ∃ (h : Fin 2 → Fin 2 → ℂ) (H : Op ℕ),
    h 0 1 = Complex.I ∧ getQuadraticOperator [0, 1] h = .ok H ∧
    H [⟨true, 0⟩, ⟨false, 1⟩] = Complex.I := by
  obtain ⟨H, hH⟩ := C32_accepts [0, 1]
    (![![1, Complex.I], ![-Complex.I, 2]] : Fin 2 → Fin 2 → ℂ)
    (by intro i j; fin_cases i <;> fin_cases j <;> simp [Complex.conj_ofNat])
  refine ⟨_, H, by simp, hH, ?_⟩
  unfold getQuadraticOperator at hH
  split_ifs at hH with hc
  obtain rfl := Except.ok.inj hH
  exact quadLoop_apply [0, 1] (by simp) _ 0 1

/-! ### C33 -/

/-- A quartic monomial `c^+ c^+ c c` over the given indices. -/
def IsQuartic (fs : List ι) (m : Mono ι) : Prop :=
  m.map Gen.dag = [true, true, false, false] ∧ ∀ g ∈ m, g.idx ∈ fs

theorem isQuartic_iff (fs : List ι) (m : Mono ι) :
    IsQuartic fs m ↔ ∃ i j k l, m = K4 fs i j k l := by
  constructor
  · rintro ⟨h1, h2⟩
    match m, h1, h2 with
    | [⟨d1, t1⟩, ⟨d2, t2⟩, ⟨d3, t3⟩, ⟨d4, t4⟩], h1, h2 =>
      simp only [List.map_cons, List.map_nil, List.cons.injEq, and_true] at h1
      obtain ⟨rfl, rfl, rfl, rfl⟩ := h1
      simp only [List.mem_cons, List.not_mem_nil, or_false, forall_eq_or_imp, forall_eq] at h2
      obtain ⟨m1, m2, m3, m4⟩ := h2
      obtain ⟨i, rfl⟩ := List.get_of_mem m1
      obtain ⟨j, rfl⟩ := List.get_of_mem m2
      obtain ⟨k, rfl⟩ := List.get_of_mem m3
      obtain ⟨l, rfl⟩ := List.get_of_mem m4
      exact ⟨i, j, k, l, rfl⟩
  · rintro ⟨i, j, k, l, rfl⟩
    refine ⟨rfl, ?_⟩
    intro g hg
    simp only [K4, List.mem_cons, List.not_mem_nil, or_false] at hg
    rcases hg with rfl | rfl | rfl | rfl <;> exact List.get_mem fs _

open Classical in
theorem opq_coefficients (fs : List ι) (hnd : fs.Nodup) (x : Op ι) (hx : Canonical x) :
    operatorFromQuarticTensor fs (fun i j k l => x (K4 fs i j k l))
      = x.filter (IsQuartic fs) := by
  have hsing : ∀ i j k l, x (K4 fs i j k l) • nf (K4 fs i j k l)
      = (single (K4 fs i j k l) (x (K4 fs i j k l)) : Op ι) := by
    intro i j k l
    by_cases h0 : x (K4 fs i j k l) = 0
    · rw [h0, zero_smul, single_zero]
    · rw [nf_sorted _ (hx _ (mem_support_iff.mpr h0))]
      simp
  rw [operatorFromQuarticTensor_eq]
  simp only [hsing]
  ext m
  by_cases hm : IsQuartic fs m
  · rw [Finsupp.filter_apply_pos _ _ hm]
    obtain ⟨i, j, k, l, rfl⟩ := (isQuartic_iff fs m).mp hm
    have hne : ∀ i' j' k' l', ¬ (i' = i ∧ j' = j ∧ k' = k ∧ l' = l) →
        (single (K4 fs i' j' k' l') (x (K4 fs i' j' k' l')) : Op ι) (K4 fs i j k l) = 0 := by
      intro i' j' k' l' h
      rw [Finsupp.single_apply, if_neg]
      intro hk
      exact h (K4_inj fs hnd _ _ _ _ _ _ _ _ hk)
    rw [Finsupp.finsetSum_apply, Finset.sum_eq_single i]
    · rw [Finsupp.finsetSum_apply, Finset.sum_eq_single j]
      · rw [Finsupp.finsetSum_apply, Finset.sum_eq_single k]
        · rw [Finsupp.finsetSum_apply, Finset.sum_eq_single l]
          · simp
          · intro l' _ h; exact hne _ _ _ _ (by tauto)
          · simp
        · intro k' _ h
          rw [Finsupp.finsetSum_apply]
          exact Finset.sum_eq_zero fun l' _ => hne _ _ _ _ (by tauto)
        · simp
      · intro j' _ h
        rw [Finsupp.finsetSum_apply]
        refine Finset.sum_eq_zero fun k' _ => ?_
        rw [Finsupp.finsetSum_apply]
        exact Finset.sum_eq_zero fun l' _ => hne _ _ _ _ (by tauto)
      · simp
    · intro i' _ h
      rw [Finsupp.finsetSum_apply]
      refine Finset.sum_eq_zero fun j' _ => ?_
      rw [Finsupp.finsetSum_apply]
      refine Finset.sum_eq_zero fun k' _ => ?_
      rw [Finsupp.finsetSum_apply]
      exact Finset.sum_eq_zero fun l' _ => hne _ _ _ _ (by tauto)
    · simp
  · rw [Finsupp.filter_apply_neg _ _ hm, Finsupp.finsetSum_apply]
    refine Finset.sum_eq_zero fun i _ => ?_
    rw [Finsupp.finsetSum_apply]
    refine Finset.sum_eq_zero fun j _ => ?_
    rw [Finsupp.finsetSum_apply]
    refine Finset.sum_eq_zero fun k _ => ?_
    rw [Finsupp.finsetSum_apply]
    refine Finset.sum_eq_zero fun l _ => ?_
    rw [Finsupp.single_apply, if_neg]
    rintro rfl
    exact hm ((isQuartic_iff fs _).mpr ⟨i, j, k, l, rfl⟩)

/-- C33: the extraction raises exactly when some four operator term is not of the
form `c^+ c^+ c c`. -/
theorem C33_refuses (p : Bool) (fs : List ι) (hnd : fs.Nodup) (x : Op ι) (hx : Canonical x)
    (ts : List (Mono ι × ℂ)) (hts : Enumerates ts x) :
    quarticTensorFromOperator fs p ts = .error .assertion ↔
      ∃ m ∈ x.support, m.length = 4 ∧ m.map Gen.dag ≠ [true, true, false, false] := by
  have hgood : ∀ m : Mono ι, GoodQuartic m ↔
      ¬ (m.length = 4 ∧ m.map Gen.dag ≠ [true, true, false, false]) := by
    intro m
    constructor
    · rintro hg ⟨hl, hne⟩
      match m, hl with
      | [g1, g2, g3, g4], _ =>
        obtain ⟨h1, h2, h3, h4⟩ := hg g1 g2 g3 g4 rfl
        exact hne (by simp [h1, h2, h3, h4])
    · intro h g1 g2 g3 g4 he
      subst he
      by_contra hc
      refine h ⟨rfl, fun hm => hc ?_⟩
      simpa using hm
  constructor
  · intro herr
    by_contra hno
    push Not at hno
    rw [quarticTensor_ok p fs hnd x hx ts hts] at herr
    · cases herr
    · intro m hm
      rw [hgood]
      rintro ⟨h1, h2⟩
      exact h2 (hno m hm h1)
  · rintro ⟨m, hm, h⟩
    have hmem : (m, x m) ∈ ts := (hts.2 m (x m)).mpr ⟨mem_support_iff.mp hm, rfl⟩
    exact quarticTensor_bad p fs ts _ (m, x m) hmem fun hg => (hgood m).mp hg h

theorem quarticTensor_of_ok (p : Bool) (fs : List ι) (hnd : fs.Nodup) (x : Op ι)
    (hx : Canonical x) (ts : List (Mono ι × ℂ)) (hts : Enumerates ts x) (U : T4 fs.length)
    (hU : quarticTensorFromOperator fs p ts = .ok U) : U = quartSpec p fs x := by
  by_cases hbad : ∀ m ∈ x.support, GoodQuartic m
  · rw [quarticTensor_ok p fs hnd x hx ts hts hbad] at hU
    exact (Except.ok.inj hU).symm
  · push Not at hbad
    obtain ⟨m, hm, hg⟩ := hbad
    have hmem : (m, x m) ∈ ts := (hts.2 m (x m)).mpr ⟨mem_support_iff.mp hm, rfl⟩
    unfold quarticTensorFromOperator at hU
    rw [quarticTensor_bad p fs ts _ (m, x m) hmem hg] at hU
    cases hU

open Classical in
/-- C33: the operator built from the extracted tensor is the part of `H` that
consists of quartic terms over the given operators, with and without `perm_sym`. -/
theorem C33_roundtrip (p : Bool) (fs : List ι) (hnd : fs.Nodup) (x : Op ι) (hx : Canonical x)
    (ts : List (Mono ι × ℂ)) (hts : Enumerates ts x) (U : T4 fs.length)
    (hU : quarticTensorFromOperator fs p ts = .ok U) :
    operatorFromQuarticTensor fs U = x.filter (IsQuartic fs) := by
  rw [quarticTensor_of_ok p fs hnd x hx ts hts U hU]
  cases p with
  | false => exact opq_coefficients fs hnd x hx
  | true =>
    have : quartSpec true fs x = permSym fun i j k l => x (K4 fs i j k l) := rfl
    rw [this, opq_permSym]
    exact opq_coefficients fs hnd x hx

/-- C33: a purely quartic operator is accepted and recovered. -/
theorem C33_quartic (p : Bool) (fs : List ι) (hnd : fs.Nodup) (x : Op ι) (hx : Canonical x)
    (hq : ∀ m ∈ x.support, IsQuartic fs m) (ts : List (Mono ι × ℂ)) (hts : Enumerates ts x) :
    ∃ U, quarticTensorFromOperator fs p ts = .ok U ∧ operatorFromQuarticTensor fs U = x := by
  classical
  have hgood : ∀ m ∈ x.support, GoodQuartic m := by
    intro m hm g1 g2 g3 g4 he
    have := (hq m hm).1
    rw [he] at this
    simpa using this
  refine ⟨_, quarticTensor_ok p fs hnd x hx ts hts hgood, ?_⟩
  rw [C33_roundtrip p fs hnd x hx ts hts _ (quarticTensor_ok p fs hnd x hx ts hts hgood),
    Finsupp.filter_eq_self_iff]
  intro m hm
  exact hq m (mem_support_iff.mpr hm)

/-- C33: the option `perm_sym` is the symmetriser applied to the plain tensor. -/
theorem C33_perm_sym (fs : List ι) (hnd : fs.Nodup) (x : Op ι) (hx : Canonical x)
    (ts ts' : List (Mono ι × ℂ)) (hts : Enumerates ts x) (hts' : Enumerates ts' x)
    (U V : T4 fs.length) (hU : quarticTensorFromOperator fs false ts = .ok U)
    (hV : quarticTensorFromOperator fs true ts' = .ok V) : V = permSym U := by
  rw [quarticTensor_of_ok false fs hnd x hx ts hts U hU,
    quarticTensor_of_ok true fs hnd x hx ts' hts' V hV]
  rfl

/-- C33, example: the density-density term `c^+_0 c^+_1 c_1 c_0` with coefficient 3. -/
example : ∃ (x : Op ℕ) (U : T4 2), Canonical x ∧
    quarticTensorFromOperator [0, 1] false
      [([⟨true, 0⟩, ⟨true, 1⟩, ⟨false, 1⟩, ⟨false, 0⟩], 3)] = .ok U ∧ U 0 1 1 0 = 3 ∧
    Enumerates [([⟨true, 0⟩, ⟨true, 1⟩, ⟨false, 1⟩, ⟨false, 0⟩], 3)] x := by
  have hE : Enumerates [(([⟨true, 0⟩, ⟨true, 1⟩, ⟨false, 1⟩, ⟨false, 0⟩] : Mono ℕ), (3 : ℂ))]
      (single [⟨true, 0⟩, ⟨true, 1⟩, ⟨false, 1⟩, ⟨false, 0⟩] 3) := by
    refine ⟨by simp, fun m a => ?_⟩
    simp only [List.mem_singleton, Prod.mk.injEq]
    constructor
    · rintro ⟨rfl, rfl⟩; simp
    · rintro ⟨ha, rfl⟩
      rw [Finsupp.single_apply] at ha ⊢
      split_ifs at ha ⊢ with h
      · exact ⟨h.symm, rfl⟩
      · exact absurd rfl ha
  have hc : Canonical (single [⟨true, 0⟩, ⟨true, 1⟩, ⟨false, 1⟩, ⟨false, 0⟩] (3 : ℂ) : Op ℕ) := by
    rw [← mem_canon]
    refine Finsupp.single_mem_supported _ _ ?_
    exact (K4_sorted [0, 1] 0 1 1 0).mpr ⟨by simp, by simp⟩
  refine ⟨_, _, hc, quarticTensor_ok false [0, 1] (by simp) _ hc _ hE ?_, ?_, hE⟩
  · intro m hm g1 g2 g3 g4 he
    rw [Finsupp.support_single _ (by norm_num), Finset.mem_singleton] at hm
    rw [hm] at he
    simp only [List.cons.injEq, and_true] at he
    obtain ⟨rfl, rfl, rfl, rfl⟩ := he
    exact ⟨rfl, rfl, rfl, rfl⟩
  · exact Finsupp.single_eq_same

/-! ### C34 -/

/-- C34: permutation symmetrisation keeps the operator. -/
theorem C34_perm (fs : List ι) (U : T4 fs.length) :
    operatorFromQuarticTensor fs (permSym U) = operatorFromQuarticTensor fs U :=
  opq_permSym fs U

/-- C34: clearing the Pauli forbidden elements keeps the operator. -/
theorem C34_pauli (fs : List ι) (U : T4 fs.length) :
    operatorFromQuarticTensor fs (pauliSym U) = operatorFromQuarticTensor fs U :=
  opq_pauliSym fs U

/-- C34: conjugation symmetrisation gives the hermitian part, hence keeps a
self-adjoint operator. -/
theorem C34_conj (fs : List ι) (U : T4 fs.length) :
    operatorFromQuarticTensor fs (conjSym U)
      = (1 / 2 : ℂ) • (operatorFromQuarticTensor fs U
          + dagger (operatorFromQuarticTensor fs U)) ∧
    (dagger (operatorFromQuarticTensor fs U) = operatorFromQuarticTensor fs U →
      operatorFromQuarticTensor fs (conjSym U) = operatorFromQuarticTensor fs U) := by
  refine ⟨opq_conjSym fs U, fun h => ?_⟩
  rw [opq_conjSym, h]
  module

/-- C34: the three symmetrisers are idempotent. -/
theorem C34_idempotent {n : ℕ} (U : T4 n) :
    permSym (permSym U) = permSym U ∧ conjSym (conjSym U) = conjSym U ∧
      pauliSym (pauliSym U) = pauliSym U := by
  refine ⟨?_, ?_, ?_⟩ <;> funext i j k l
  · simp only [permSym_eq]; ring
  · simp only [conjSym_eq, map_mul, map_add, Complex.conj_conj]
    simp only [map_div₀, map_one, Complex.conj_ofNat]
    ring
  · simp only [pauliSym_eq]; split_ifs <;> rfl

/-- C34: the output of `symmetrize_quartic_tensor` has the advertised symmetries
and represents the same operator (the hermitian part with `conjugation`). -/
theorem C34_symmetrize (fs : List ι) (U : T4 fs.length) (conjugation : Bool) :
    (∀ i j k l, symmetrizeQuartic U conjugation j i k l = -symmetrizeQuartic U conjugation i j k l)
    ∧ (∀ i j k l,
        symmetrizeQuartic U conjugation i j l k = -symmetrizeQuartic U conjugation i j k l)
    ∧ (conjugation = true → ∀ i j k l, symmetrizeQuartic U conjugation i j k l
        = starRingEnd ℂ (symmetrizeQuartic U conjugation l k j i))
    ∧ (∀ i k l, symmetrizeQuartic U conjugation i i k l = 0)
    ∧ (∀ i j k, symmetrizeQuartic U conjugation i j k k = 0)
    ∧ operatorFromQuarticTensor fs (symmetrizeQuartic U conjugation)
        = if conjugation then (1 / 2 : ℂ) • (operatorFromQuarticTensor fs U
            + dagger (operatorFromQuarticTensor fs U)) else operatorFromQuarticTensor fs U := by
  have hP : ∀ i j k l, permSym U j i k l = -permSym U i j k l := by
    intro i j k l; simp only [permSym_eq]; ring
  have hP' : ∀ i j k l, permSym U i j l k = -permSym U i j k l := by
    intro i j k l; simp only [permSym_eq]; ring
  have key1 : ∀ i j k l, symmetrizeQuartic U conjugation j i k l
      = -symmetrizeQuartic U conjugation i j k l := by
    intro i j k l
    simp only [symmetrizeQuartic, pauliSym_eq]
    by_cases h : i = j ∨ k = l
    · have h' : j = i ∨ k = l := by rcases h with rfl | h; exacts [Or.inl rfl, Or.inr h]
      rw [if_pos h, if_pos h', neg_zero]
    · have h' : ¬ (j = i ∨ k = l) := by
        rintro (rfl | h'); exacts [h (Or.inl rfl), h (Or.inr h')]
      rw [if_neg h, if_neg h']
      cases conjugation
      · simp only [Bool.false_eq_true, if_false]; exact hP i j k l
      · simp only [if_true, conjSym_eq]
        rw [hP i j k l, hP' l k j i, map_neg]; ring
  have key2 : ∀ i j k l, symmetrizeQuartic U conjugation i j l k
      = -symmetrizeQuartic U conjugation i j k l := by
    intro i j k l
    simp only [symmetrizeQuartic, pauliSym_eq]
    by_cases h : i = j ∨ k = l
    · have h' : i = j ∨ l = k := by rcases h with h | rfl; exacts [Or.inl h, Or.inr rfl]
      rw [if_pos h, if_pos h', neg_zero]
    · have h' : ¬ (i = j ∨ l = k) := by
        rintro (h' | rfl); exacts [h (Or.inl h'), h (Or.inr rfl)]
      rw [if_neg h, if_neg h']
      cases conjugation
      · simp only [Bool.false_eq_true, if_false]; exact hP' i j k l
      · simp only [if_true, conjSym_eq]
        rw [hP' i j k l, hP l k j i, map_neg]; ring
  refine ⟨key1, key2, ?_, ?_, ?_, ?_⟩
  · rintro rfl i j k l
    simp only [symmetrizeQuartic, pauliSym_eq, if_true, conjSym_eq]
    by_cases h : i = j ∨ k = l
    · have h' : l = k ∨ j = i := by tauto
      rw [if_pos h, if_pos h', map_zero]
    · have h' : ¬ (l = k ∨ j = i) := by tauto
      rw [if_neg h, if_neg h']
      simp only [map_mul, map_add, Complex.conj_conj, map_div₀, map_one, Complex.conj_ofNat]
      ring
  · intro i k l; simp [symmetrizeQuartic, pauliSym_eq]
  · intro i j k; simp [symmetrizeQuartic, pauliSym_eq]
  · unfold symmetrizeQuartic
    simp only
    rw [opq_pauliSym]
    cases conjugation
    · simp only [Bool.false_eq_true, if_false]; exact opq_permSym fs U
    · simp only [if_true]; rw [opq_conjSym, opq_permSym]

/-- C34, example: a tensor on which all three symmetrisers act non-trivially. -/
example : ∃ U : T4 2, permSym U ≠ U ∧ conjSym U ≠ U ∧ pauliSym U ≠ U ∧ permSym U ≠ 0 := by
  refine ⟨fun i j k l => if i = 0 ∧ j = 1 ∧ k = 1 ∧ l = 0 then Complex.I else
    if i = 0 ∧ j = 0 ∧ k = 0 ∧ l = 0 then 1 else 0, ?_, ?_, ?_, ?_⟩
  · intro h
    have := congrFun (congrFun (congrFun (congrFun h 0) 0) 0) 0
    simp [permSym_eq] at this
  · intro h
    have := congrFun (congrFun (congrFun (congrFun h 0) 1) 1) 0
    simp [conjSym_eq] at this
    exact Complex.I_ne_zero this.symm
  · intro h
    have := congrFun (congrFun (congrFun (congrFun h 0) 0) 0) 0
    simp [pauliSym_eq] at this
  · intro h
    have := congrFun (congrFun (congrFun (congrFun h 0) 1) 1) 0
    simp [permSym_eq] at this

/-! ### C35 -/

/-- The elementary operators after the basis change: `c_k -> sum_l U_kl c_l` and
the conjugate, for the listed ones; the others unchanged. -/
def Substituted {A : Type} [Ring A] [Algebra ℂ A] (fs : List ι)
    (U : Matrix (Fin fs.length) (Fin fs.length) ℂ) (e e' : Gen ι → A) : Prop :=
  (∀ k, e' ⟨false, fs.get k⟩ = ∑ l, U k l • e ⟨false, fs.get l⟩) ∧
  (∀ k, e' ⟨true, fs.get k⟩ = ∑ l, (starRingEnd ℂ (U k l)) • e ⟨true, fs.get l⟩) ∧
  (∀ g, g.idx ∉ fs → e' g = e g)

theorem substituted_eq {A : Type} [Ring A] [Algebra ℂ A] (fs : List ι) (hnd : fs.Nodup)
    (U : Matrix (Fin fs.length) (Fin fs.length) ℂ) (e e' : Gen ι → A)
    (h : Substituted fs U e e') : e' = substE fs U e := by
  funext g
  cases hl : lookup fs g.idx with
  | none =>
    rw [substE_not_mem _ _ _ _ (lookup_none fs _ hl), h.2.2 g (lookup_none fs _ hl)]
  | some k =>
    obtain ⟨d, t⟩ := g
    have ht := lookup_some fs _ k hl
    simp only at ht
    subst ht
    rw [substE_get fs hnd]
    cases d
    · simpa using h.1 k
    · simpa using h.2.1 k

/-- C35: the transform is the substitution `c_k -> sum_l U_kl c_l`, for every
matrix `U`, whatever the size of the operator list. -/
theorem C35_substitution (fs : List ι) (hnd : fs.Nodup)
    (U : Matrix (Fin fs.length) (Fin fs.length) ℂ) (x : Op ι) (ts : List (Mono ι × ℂ))
    (hts : Enumerates ts x) {A : Type} [Ring A] [Algebra ℂ A] (e e' : Gen ι → A) (he : CAR e)
    (h : Substituted fs U e e') : eval e (singleParticleTransform fs U ts) = eval e' x := by
  rw [substituted_eq fs hnd U e e' h, eval_eq, eval_eq]
  unfold singleParticleTransform
  rw [substLoop_eq _ x ts hts, evalL_substL he]
  congr 2
  funext g
  exact evalL_transGen fs U e g

/-- C35: the identity matrix changes nothing. -/
theorem C35_identity (fs : List ι) (hnd : fs.Nodup) (x : Op ι) (hx : Canonical x)
    (ts : List (Mono ι × ℂ)) (hts : Enumerates ts x) :
    singleParticleTransform fs (1 : Matrix (Fin fs.length) (Fin fs.length) ℂ) ts = x := by
  unfold singleParticleTransform
  rw [substLoop_eq _ x ts hts]
  apply ext_car _ _ (substL_canon _ _) ((mem_canon x).mpr hx)
  intro A _ _ e he
  rw [evalL_transL fs _ he.half x hx, substE_one fs hnd]

/-- C35: the transform by `U` followed by the one by `V` is the one by `U V`. -/
theorem C35_compose (fs : List ι) (hnd : fs.Nodup)
    (U V : Matrix (Fin fs.length) (Fin fs.length) ℂ) (x : Op ι) (hx : Canonical x)
    (ts ts' : List (Mono ι × ℂ)) (hts : Enumerates ts x)
    (hts' : Enumerates ts' (singleParticleTransform fs U ts)) :
    singleParticleTransform fs V ts' = singleParticleTransform fs (U * V) ts := by
  unfold singleParticleTransform at hts' ⊢
  rw [substLoop_eq _ _ ts' hts', substLoop_eq _ x ts hts, substLoop_eq _ x ts hts]
  apply ext_car _ _ (substL_canon _ _) (substL_canon _ _)
  intro A _ _ e he
  rw [evalL_transL fs V he.half _ ((mem_canon _).mp (substL_canon _ _)),
    evalL_transL fs U (he.half.substE fs hnd V) x hx, evalL_transL fs _ he.half x hx,
    substE_comp fs hnd]

/-- C35: linear in the operator. -/
theorem C35_linear (fs : List ι) (U : Matrix (Fin fs.length) (Fin fs.length) ℂ) (x y : Op ι)
    (a b : ℂ) (tx ty tz : List (Mono ι × ℂ)) (hx : Enumerates tx x) (hy : Enumerates ty y)
    (hz : Enumerates tz (a • x + b • y)) :
    singleParticleTransform fs U tz
      = a • singleParticleTransform fs U tx + b • singleParticleTransform fs U ty := by
  unfold singleParticleTransform
  rw [substLoop_eq _ _ tz hz, substLoop_eq _ _ tx hx, substLoop_eq _ _ ty hy, map_add, map_smul,
    map_smul]

/-- C35: compatible with products for all operators exactly when `U` is unitary. -/
theorem C35_multiplicative_iff_unitary (fs : List ι) (hnd : fs.Nodup)
    (U : Matrix (Fin fs.length) (Fin fs.length) ℂ) :
    (∀ (x y : Op ι), Canonical x → Canonical y → ∀ tx ty tz : List (Mono ι × ℂ),
      Enumerates tx x → Enumerates ty y → Enumerates tz (mul x y) →
      singleParticleTransform fs U tz
        = mul (singleParticleTransform fs U tx) (singleParticleTransform fs U ty))
      ↔ U * U.conjTranspose = 1 := by
  constructor
  · intro H
    ext k l
    have hel : ∀ g : Gen ι, Canonical (elem g) := fun g => (mem_canon _).mp (elem_canon g)
    -- the relation `{c_k, c_l^+} = delta_kl`, transformed
    have hprod : ∀ g h : Gen ι, substL (transGen fs U) (mul (elem g) (elem h))
        = mul (substL (transGen fs U) (elem g)) (substL (transGen fs U) (elem h)) := by
      intro g h
      obtain ⟨tx, hx⟩ := exists_enumerates (elem g)
      obtain ⟨ty, hy⟩ := exists_enumerates (elem h)
      obtain ⟨tz, hz⟩ := exists_enumerates (mul (elem g) (elem h))
      have := H (elem g) (elem h) (hel g) (hel h) tx ty tz hx hy hz
      unfold singleParticleTransform at this
      rwa [substLoop_eq _ _ tz hz, substLoop_eq _ _ tx hx, substLoop_eq _ _ ty hy] at this
    have hanti : ∀ g h : Gen ι, mul (elem g) (elem h) + mul (elem h) (elem g)
        = contraction g h • one := by
      intro g h
      apply ext_car _ _ (Submodule.add_mem _ (mul_canon _ _) (mul_canon _ _))
        (Submodule.smul_mem _ _ one_canon)
      intro A _ _ e he
      rw [map_add, evalL_mul he, evalL_mul he, evalL_elem, evalL_elem, map_smul, evalL_one, he]
    have h1 := congrArg (evalL reg) (congrArg (substL (transGen fs U))
      (hanti ⟨false, fs.get k⟩ ⟨true, fs.get l⟩))
    rw [map_add, hprod, hprod, map_add, evalL_mul reg_car, evalL_mul reg_car, map_smul, map_smul,
      evalL_transL fs U reg_car.half _ (hel _), evalL_transL fs U reg_car.half _ (hel _),
      evalL_transL fs U reg_car.half _ ((mem_canon _).mp one_canon), evalL_elem, evalL_elem,
      evalL_one, substE_mixed fs hnd U reg_car] at h1
    have h2 := congrArg (fun f : Module.End ℂ (canon ι) => (f vac).1 []) h1
    simp only [LinearMap.smul_apply, Module.End.one_apply, Submodule.coe_smul, vac,
      Finsupp.smul_apply, Finsupp.single_eq_same, smul_eq_mul, mul_one] at h2
    rw [h2, contraction, Matrix.one_apply]
    by_cases hkl : k = l
    · rw [if_pos hkl, if_pos ⟨by simp, by rw [hkl]⟩]
    · rw [if_neg hkl, if_neg]
      rintro ⟨_, h⟩
      exact hkl (hnd.injective_get h)
  · intro hU x y hx hy tx ty tz htx hty htz
    unfold singleParticleTransform
    rw [substLoop_eq _ _ tz htz, substLoop_eq _ _ tx htx, substLoop_eq _ _ ty hty]
    apply ext_car _ _ (substL_canon _ _) (mul_canon _ _)
    intro A _ _ e he
    rw [evalL_transL fs U he.half _ ((mem_canon _).mp (mul_canon _ _)), evalL_mul he,
      evalL_transL fs U he.half x hx, evalL_transL fs U he.half y hy,
      evalL_mul (he.substE fs hnd U hU)]

/-- C35: a quadratic form `h` becomes `U^+ h U`. -/
theorem C35_quadratic (fs : List ι) (hnd : fs.Nodup)
    (U h : Matrix (Fin fs.length) (Fin fs.length) ℂ) (hh : h.conjTranspose = h) (H : Op ι)
    (hH : getQuadraticOperator fs (fun i j => h i j) = .ok H) (ts : List (Mono ι × ℂ))
    (hts : Enumerates ts H) :
    getQuadraticOperator fs (fun i j => (U.conjTranspose * h * U) i j) = .ok (singleParticleTransform fs U ts) := by
  unfold getQuadraticOperator at hH ⊢
  split_ifs at hH with hc
  obtain rfl : quadLoop fs (fun i j => h i j) = H := Except.ok.inj hH
  have hherm : (U.conjTranspose * h * U).conjTranspose = U.conjTranspose * h * U := by
    rw [Matrix.conjTranspose_mul, Matrix.conjTranspose_mul, Matrix.conjTranspose_conjTranspose, hh,
      Matrix.mul_assoc]
  rw [if_pos]
  · congr 1
    unfold singleParticleTransform
    rw [substLoop_eq _ _ ts hts]
    have hcanon : ∀ h : Fin fs.length → Fin fs.length → ℂ, quadLoop fs h ∈ canon ι := by
      intro h
      rw [quadLoop_eq]
      exact Submodule.sum_mem _ fun i _ => Submodule.sum_mem _ fun j _ =>
        Submodule.smul_mem _ _ (nf_canon _)
    apply ext_car _ _ (hcanon _) (substL_canon _ _)
    intro A _ _ e he
    rw [evalL_transL fs U he.half _ ((mem_canon _).mp (hcanon fun i j => h i j)), quadLoop_eq_single,
      quadLoop_eq_single]
    simp only [map_sum, evalL_single, K2, List.map_cons, List.map_nil, List.prod_cons,
      List.prod_nil, mul_one, substE_get fs hnd, if_true, Bool.false_eq_true, if_false,
      Finset.sum_mul_sum, smul_mul_smul_comm, Finset.smul_sum, smul_smul]
    -- bring the sums to the order `m n i j`
    simp only [Matrix.mul_apply, Finset.sum_mul, Finset.sum_smul, Matrix.conjTranspose_apply]
    calc ∑ m, ∑ n, ∑ j, ∑ i, (star (U i m) * h i j * U j n)
            • (e ⟨true, fs.get m⟩ * e ⟨false, fs.get n⟩)
        = ∑ m, ∑ n, ∑ i, ∑ j, (star (U i m) * h i j * U j n)
            • (e ⟨true, fs.get m⟩ * e ⟨false, fs.get n⟩) :=
          Finset.sum_congr rfl fun m _ => Finset.sum_congr rfl fun n _ => Finset.sum_comm
      _ = ∑ m, ∑ i, ∑ n, ∑ j, (star (U i m) * h i j * U j n)
            • (e ⟨true, fs.get m⟩ * e ⟨false, fs.get n⟩) :=
          Finset.sum_congr rfl fun m _ => Finset.sum_comm
      _ = ∑ i, ∑ m, ∑ n, ∑ j, (star (U i m) * h i j * U j n)
            • (e ⟨true, fs.get m⟩ * e ⟨false, fs.get n⟩) := Finset.sum_comm
      _ = ∑ i, ∑ m, ∑ j, ∑ n, (star (U i m) * h i j * U j n)
            • (e ⟨true, fs.get m⟩ * e ⟨false, fs.get n⟩) :=
          Finset.sum_congr rfl fun i _ => Finset.sum_congr rfl fun m _ => Finset.sum_comm
      _ = ∑ i, ∑ j, ∑ m, ∑ n, (star (U i m) * h i j * U j n)
            • (e ⟨true, fs.get m⟩ * e ⟨false, fs.get n⟩) :=
          Finset.sum_congr rfl fun i _ => Finset.sum_comm
      _ = ∑ i, ∑ j, ∑ m, ∑ n, (h i j * (starRingEnd ℂ (U i m) * U j n))
            • (e ⟨true, fs.get m⟩ * e ⟨false, fs.get n⟩) := by
          refine Finset.sum_congr rfl fun i _ => Finset.sum_congr rfl fun j _ =>
            Finset.sum_congr rfl fun m _ => Finset.sum_congr rfl fun n _ => ?_
          congr 1
          simp only [starRingEnd_apply]
          ring
  · intro i j
    have := congrFun (congrFun hherm i) j
    rw [Matrix.conjTranspose_apply] at this
    simp only [starRingEnd_apply, this, sub_self]
    norm_num

/-- C35, example: a unitary that mixes two orbitals. -/
example : (!![0, Complex.I; 1, 0] : Matrix (Fin 2) (Fin 2) ℂ)
    * (!![0, Complex.I; 1, 0] : Matrix (Fin 2) (Fin 2) ℂ).conjTranspose = 1 := by
  ext i j
  fin_cases i <;> fin_cases j <;> simp [Matrix.mul_apply, Fin.sum_univ_two]

/-! ### C36 -/

/-- C36: every listed elementary operator is replaced by its target, all the
others are kept; the replacement is simultaneous (each factor of the original
operator is replaced once). -/
theorem C36_substitution (src : List (Gen ι)) (dst : Fin src.length → Op ι)
    (x : Op ι) (ts : List (Mono ι × ℂ)) (hts : Enumerates ts x) {A : Type} [Ring A] [Algebra ℂ A]
    (e e' : Gen ι → A) (he : CAR e) (hin : ∀ k, e' (src.get k) = eval e (dst k))
    (hout : ∀ g, g ∉ src → e' g = e g) :
    eval e (relabelOperators src dst ts) = eval e' x := by
  rw [eval_eq, eval_eq]
  unfold relabelOperators
  rw [substLoop_eq _ x ts hts, evalL_substL he]
  congr 2
  funext g
  unfold relabelGen
  cases h : src.finIdxOf? g with
  | none =>
    rw [List.finIdxOf?_eq_none_iff] at h
    rw [hout g h, evalL_elem]
  | some k =>
    rw [List.finIdxOf?_eq_some_iff] at h
    have hk : src.get k = g := h.1
    rw [← hk, hin k, eval_eq]

/-- C36: relabelling back restores the operator.  The two lists contain each
operator at most once, treat an operator and its conjugate alike, and no operator
occurring in `x` is a target without being a source (else two different operators
are merged). -/
theorem C36_roundtrip (src dst : List (Gen ι)) (hlen : src.length = dst.length)
    (hs : src.Nodup) (hd : dst.Nodup) (hf : FlipClosed src dst hlen) (x : Op ι)
    (hx : Canonical x) (hsafe : ∀ m ∈ x.support, ∀ g ∈ m, g ∈ dst → g ∈ src)
    (ts ts' : List (Mono ι × ℂ)) (hts : Enumerates ts x)
    (hts' : Enumerates ts'
      (relabelOperators src (fun k => elem (dst.get (k.cast hlen))) ts)) :
    relabelOperators dst (fun k => elem (src.get (k.cast hlen.symm))) ts' = x := by
  unfold relabelOperators at hts' ⊢
  rw [substLoop_eq _ _ ts' hts', substLoop_eq _ x ts hts]
  apply ext_car _ _ (substL_canon _ _) ((mem_canon x).mpr hx)
  intro A _ _ e he
  have e1 : relabelGen src (fun k => elem (dst.get (k.cast hlen)))
      = fun g => linOp ((fun g => [((1 : ℂ), relabelTo src dst hlen g)]) g) :=
    funext (relabelGen_elem src dst hlen)
  have e2 : relabelGen dst (fun k => elem (src.get (k.cast hlen.symm)))
      = fun g => linOp ((fun g => [((1 : ℂ), relabelTo dst src hlen.symm g)]) g) :=
    funext (relabelGen_elem dst src hlen.symm)
  rw [evalL_substL he, e2]
  have e3 : (fun g => evalL e (linOp ((fun g => [((1 : ℂ), relabelTo dst src hlen.symm g)]) g)))
      = fun g => e (relabelTo dst src hlen.symm g) := by
    funext g
    rw [evalL_linOp]; simp
  rw [e3, e1, evalL_substL_of]
  · rw [← eval_eq, ← eval_eq]
    unfold eval Finsupp.sum
    refine Finset.sum_congr rfl fun m hm => ?_
    simp only
    congr 2
    apply List.map_congr_left
    intro g hg
    simp only [List.map_cons, List.map_nil, List.sum_cons, List.sum_nil, add_zero, one_smul]
    rw [relabelTo_back src dst hlen hs hd g (hsafe m hm g hg)]
  · intro m hm q hq
    -- the factors of the relabelled monomial are images of allowed operators
    have hf2 : List.Forall₂ (fun g g' => relabelTo src dst hlen g = g') m q.2 :=
      expand_forall₂ (fun g => [((1 : ℂ), relabelTo src dst hlen g)]) _
        (by intro g p hp; simp at hp; rw [hp]) m q hq
    refine pairwise_of_forall₂
      (S := fun a b => (a ∈ dst → a ∈ src) ∧ (b ∈ dst → b ∈ src)) ?_ hf2
      (List.pairwise_of_forall_mem_list fun a ha b hb => ⟨hsafe m hm a ha, hsafe m hm b hb⟩)
    rintro a b _ _ ⟨ha, hb⟩ rfl rfl
    have hc : contraction (relabelTo src dst hlen a) (relabelTo src dst hlen b)
        = contraction a b := by
      rw [contraction_eq, contraction_eq, ← relabelTo_flip src dst hlen hs hf]
      by_cases hab : b = flip a
      · rw [if_pos hab, if_pos (by rw [hab])]
      · rw [if_neg hab, if_neg]
        intro h
        apply hab
        have := congrArg (relabelTo dst src hlen.symm) h
        rwa [relabelTo_back src dst hlen hs hd b hb,
          relabelTo_back src dst hlen hs hd _ (relabel_allowed_flip src dst hlen hf a ha)] at this
    refine ⟨fun _ => car_sq he _, fun _ => ?_⟩
    simp only [relabelTo_back src dst hlen hs hd a ha, relabelTo_back src dst hlen hs hd b hb, hc]
    exact car_swap he a b

/-- C36, example: the lists of a swap of two orbitals meet the hypotheses. -/
example : ∃ (src dst : List (Gen ℕ)) (hlen : src.length = dst.length),
    src.Nodup ∧ dst.Nodup ∧ FlipClosed src dst hlen ∧
    relabelTo src dst hlen ⟨false, 0⟩ = ⟨false, 1⟩ ∧
    relabelTo src dst hlen ⟨false, 1⟩ = ⟨false, 0⟩ ∧
    relabelTo src dst hlen ⟨false, 2⟩ = ⟨false, 2⟩ := by
  refine ⟨[⟨false, 0⟩, ⟨false, 1⟩, ⟨true, 0⟩, ⟨true, 1⟩],
    [⟨false, 1⟩, ⟨false, 0⟩, ⟨true, 1⟩, ⟨true, 0⟩], rfl, by simp, by simp, ?_, ?_, ?_, ?_⟩
  · intro k
    refine ⟨![2, 3, 0, 1] k, ?_⟩
    fin_cases k <;> exact ⟨rfl, rfl⟩
  · rfl
  · rfl
  · rfl

/-! ### C37 -/

open Classical in
/-- C37: the RPA tensor changes sign under exchange of its two creation indices
(second and fourth) or its two annihilation indices (first and third), and the
quartic part of the Hamiltonian is
`1/4 sum_abcd Gamma_abcd c^+_b c^+_d c_a c_c`. -/
theorem C37_rpa_tensor (fs : List ι) (hnd : fs.Nodup) (x : Op ι) (hx : Canonical x)
    (ts : List (Mono ι × ℂ)) (hts : Enumerates ts x) (Γ : T4 fs.length)
    (hΓ : getRpaTensor fs ts = .ok Γ) :
    (∀ a b c d, Γ c b a d = -Γ a b c d) ∧ (∀ a b c d, Γ a d c b = -Γ a b c d) ∧
    ∀ {A : Type} [Ring A] [Algebra ℂ A] (e : Gen ι → A), CAR e →
      eval e (x.filter (IsQuartic fs))
        = (1 / 4 : ℂ) • ∑ a, ∑ b, ∑ c, ∑ d, Γ a b c d •
            (e ⟨true, fs.get b⟩ * e ⟨true, fs.get d⟩ * e ⟨false, fs.get a⟩ * e ⟨false, fs.get c⟩)
    := by
  unfold getRpaTensor at hΓ
  cases hU : quarticTensorFromOperator fs false ts with
  | error err => rw [hU] at hΓ; cases hΓ
  | ok U =>
    rw [hU] at hΓ
    obtain rfl := Except.ok.inj hΓ
    refine ⟨fun a b c d => ?_, fun a b c d => ?_, ?_⟩
    · simp only [permSym_eq]; ring
    · simp only [permSym_eq]; ring
    · intro A _ _ e he
      have h1 := C33_roundtrip false fs hnd x hx ts hts U hU
      rw [← h1, ← C34_perm, eval_eq, operatorFromQuarticTensor_eq]
      set F : Fin fs.length → Fin fs.length → Fin fs.length → Fin fs.length → A :=
        fun i j k l => permSym U i j k l • (e ⟨true, fs.get i⟩ * e ⟨true, fs.get j⟩
          * e ⟨false, fs.get k⟩ * e ⟨false, fs.get l⟩) with hF
      have hL : ∀ i j k l, evalL e (permSym U i j k l • nf (K4 fs i j k l)) = F i j k l := by
        intro i j k l
        rw [map_smul, evalL_nf he, hF]
        simp only [K4, List.map_cons, List.map_nil, List.prod_cons, List.prod_nil, mul_one,
          mul_assoc]
      have hR : ∀ i j k l, (4 * permSym U i j k l) • (e ⟨true, fs.get i⟩ * e ⟨true, fs.get j⟩
          * e ⟨false, fs.get k⟩ * e ⟨false, fs.get l⟩) = (4 : ℂ) • F i j k l := by
        intro i j k l
        rw [hF, smul_smul]
      simp only [map_sum, hL, hR, ← Finset.smul_sum]
      rw [smul_smul]
      have h4 : (1 / 4 : ℂ) * 4 = 1 := by norm_num
      rw [h4, one_smul]
      calc ∑ i, ∑ j, ∑ k, ∑ l, F i j k l = ∑ i, ∑ k, ∑ j, ∑ l, F i j k l :=
            Finset.sum_congr rfl fun i _ => Finset.sum_comm
        _ = ∑ k, ∑ i, ∑ j, ∑ l, F i j k l := Finset.sum_comm
        _ = ∑ k, ∑ i, ∑ l, ∑ j, F i j k l :=
            Finset.sum_congr rfl fun k _ => Finset.sum_congr rfl fun i _ => Finset.sum_comm

/-- C37: the RPA tensor is refused only for four operator terms that are not of
the form `c^+ c^+ c c`. -/
theorem C37_accepts (fs : List ι) (hnd : fs.Nodup) (x : Op ι) (hx : Canonical x)
    (ts : List (Mono ι × ℂ)) (hts : Enumerates ts x)
    (hgood : ∀ m ∈ x.support, m.length = 4 → m.map Gen.dag = [true, true, false, false]) :
    ∃ Γ, getRpaTensor fs ts = .ok Γ := by
  unfold getRpaTensor
  cases hU : quarticTensorFromOperator fs false ts with
  | error err =>
    cases err
    obtain ⟨m, hm, h4, hne⟩ := (C33_refuses false fs hnd x hx ts hts).mp hU
    exact absurd (hgood m hm h4) hne
  | ok U => exact ⟨_, rfl⟩

end Verif.Operators
