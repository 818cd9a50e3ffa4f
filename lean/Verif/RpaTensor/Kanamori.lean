import Verif.RpaTensor.Props
import Verif.Operators.Props

/-!
# C39: Kanamori interaction tensors
-/

namespace Verif.RpaTensor

open Verif.Rpa (T4 swapLast)
open Verif.Operators (Op Mono Gen Err nf K4 permSym permSym_eq operatorFromQuarticTensor
  operatorFromQuarticTensor_eq getRpaTensor Enumerates Canonical mul dagger c canon mem_canon)
open Finsupp hiding some

set_option linter.unusedSectionVars false

variable {ι : Type} [LinearOrder ι] {n : ℕ}

/-! ## Extraction after assembly -/

/-- coefficients restricted to the normal ordered positions -/
noncomputable def sortedPart (fs : List ι) (V : Operators.T4 fs.length) : Operators.T4 fs.length :=
  fun i j k l => if fs.get i < fs.get j ∧ fs.get l < fs.get k then 4 * V i j k l else 0

theorem permSym_sortedPart (fs : List ι) (hnd : fs.Nodup) (h : Operators.T4 fs.length) :
    permSym (sortedPart fs (permSym h)) = permSym h := by
  funext i j k l
  have hji : ∀ i j k l, permSym h j i k l = -permSym h i j k l := by
    intro i j k l; simp only [permSym_eq]; ring
  have hlk : ∀ i j k l, permSym h i j l k = -permSym h i j k l := by
    intro i j k l; simp only [permSym_eq]; ring
  have hii : ∀ i k l, permSym h i i k l = 0 := by
    intro i k l; simp only [permSym_eq]; ring
  have hkk : ∀ i j k, permSym h i j k k = 0 := by
    intro i j k; simp only [permSym_eq]; ring
  rw [permSym_eq (sortedPart fs (permSym h))]
  simp only [sortedPart]
  rw [hji i j k l, hlk i j k l, show permSym h j i l k = permSym h i j k l by rw [hji, hlk]; ring]
  rcases lt_trichotomy (fs.get i) (fs.get j) with h1 | h1 | h1
  · rcases lt_trichotomy (fs.get k) (fs.get l) with h2 | h2 | h2
    · simp only [h1, h2, h1.not_gt, h2.not_gt, and_true, and_false, if_true, if_false]; ring
    · obtain rfl := hnd.injective_get h2
      simp only [hkk]; simp
    · simp only [h1, h2, h1.not_gt, h2.not_gt, and_true, and_false, if_true, if_false]; ring
  · obtain rfl := hnd.injective_get h1
    simp only [hii]; simp
  · rcases lt_trichotomy (fs.get k) (fs.get l) with h2 | h2 | h2
    · simp only [h1, h2, h1.not_gt, h2.not_gt, and_true, and_false, if_true, if_false]; ring
    · obtain rfl := hnd.injective_get h2
      simp only [hkk]; simp
    · simp only [h1, h2, h1.not_gt, h2.not_gt, and_true, and_false, if_true, if_false]; ring

theorem opq_eq_sum_single (fs : List ι) (hnd : fs.Nodup) (h : Operators.T4 fs.length) :
    operatorFromQuarticTensor fs h = ∑ i, ∑ j, ∑ k, ∑ l,
      (single (K4 fs i j k l) (sortedPart fs (permSym h) i j k l) : Op ι) := by
  have he : operatorFromQuarticTensor fs h
      = operatorFromQuarticTensor fs (sortedPart fs (permSym h)) := by
    rw [← Operators.opq_permSym fs (sortedPart fs (permSym h)), permSym_sortedPart fs hnd,
      Operators.opq_permSym]
  rw [he, operatorFromQuarticTensor_eq]
  refine Finset.sum_congr rfl fun i _ => Finset.sum_congr rfl fun j _ =>
    Finset.sum_congr rfl fun k _ => Finset.sum_congr rfl fun l _ => ?_
  by_cases hs : fs.get i < fs.get j ∧ fs.get l < fs.get k
  · rw [Operators.nf_sorted _ ((Operators.K4_sorted fs i j k l).mpr hs)]
    simp
  · rw [show sortedPart fs (permSym h) i j k l = 0 from if_neg hs]
    simp

theorem opq_apply (fs : List ι) (hnd : fs.Nodup) (h : Operators.T4 fs.length)
    (i j k l : Fin fs.length) :
    operatorFromQuarticTensor fs h (K4 fs i j k l) = sortedPart fs (permSym h) i j k l := by
  rw [opq_eq_sum_single fs hnd]
  have hne : ∀ i' j' k' l', ¬ (i' = i ∧ j' = j ∧ k' = k ∧ l' = l) →
      (single (K4 fs i' j' k' l') (sortedPart fs (permSym h) i' j' k' l') : Op ι)
        (K4 fs i j k l) = 0 := by
    intro i' j' k' l' hc
    rw [Finsupp.single_apply, if_neg]
    intro hk
    exact hc (Operators.K4_inj fs hnd _ _ _ _ _ _ _ _ hk)
  rw [Finsupp.finsetSum_apply, Finset.sum_eq_single i]
  · rw [Finsupp.finsetSum_apply, Finset.sum_eq_single j]
    · rw [Finsupp.finsetSum_apply, Finset.sum_eq_single k]
      · rw [Finsupp.finsetSum_apply, Finset.sum_eq_single l]
        · simp
        · intro l' _ hc; exact hne _ _ _ _ (by tauto)
        · simp
      · intro k' _ hc
        rw [Finsupp.finsetSum_apply]
        exact Finset.sum_eq_zero fun l' _ => hne _ _ _ _ (by tauto)
      · simp
    · intro j' _ hc
      rw [Finsupp.finsetSum_apply]
      refine Finset.sum_eq_zero fun k' _ => ?_
      rw [Finsupp.finsetSum_apply]
      exact Finset.sum_eq_zero fun l' _ => hne _ _ _ _ (by tauto)
    · simp
  · intro i' _ hc
    rw [Finsupp.finsetSum_apply]
    refine Finset.sum_eq_zero fun j' _ => ?_
    rw [Finsupp.finsetSum_apply]
    refine Finset.sum_eq_zero fun k' _ => ?_
    rw [Finsupp.finsetSum_apply]
    exact Finset.sum_eq_zero fun l' _ => hne _ _ _ _ (by tauto)
  · simp

theorem opq_canonical (fs : List ι) (h : Operators.T4 fs.length) :
    Canonical (operatorFromQuarticTensor fs h) := by
  rw [← mem_canon, operatorFromQuarticTensor_eq]
  refine Submodule.sum_mem _ fun i _ => Submodule.sum_mem _ fun j _ =>
    Submodule.sum_mem _ fun k _ => Submodule.sum_mem _ fun l _ => Submodule.smul_mem _ _ ?_
  exact Operators.nf_canon _

theorem opq_support (fs : List ι) (hnd : fs.Nodup) (h : Operators.T4 fs.length) (m : Mono ι)
    (hm : m ∈ (operatorFromQuarticTensor fs h).support) : ∃ i j k l, m = K4 fs i j k l := by
  by_contra hc
  push Not at hc
  rw [Finsupp.mem_support_iff] at hm
  apply hm
  rw [opq_eq_sum_single fs hnd, Finsupp.finsetSum_apply]
  refine Finset.sum_eq_zero fun i _ => ?_
  rw [Finsupp.finsetSum_apply]
  refine Finset.sum_eq_zero fun j _ => ?_
  rw [Finsupp.finsetSum_apply]
  refine Finset.sum_eq_zero fun k _ => ?_
  rw [Finsupp.finsetSum_apply]
  refine Finset.sum_eq_zero fun l _ => ?_
  rw [Finsupp.single_apply, if_neg (hc i j k l).symm]

/-- C37: the RPA tensor of the operator `sum h_ijkl c^+_i c^+_j c_k c_l` is four times the
antisymmetrised `h`, in vertex order. -/
theorem C37_of_tensor (fs : List ι) (hnd : fs.Nodup) (h : Operators.T4 fs.length)
    (ts : List (Mono ι × ℂ)) (hts : Enumerates ts (operatorFromQuarticTensor fs h)) :
    getRpaTensor fs ts = .ok fun a b c d => 4 * permSym h b d a c := by
  have hgood : ∀ m ∈ (operatorFromQuarticTensor fs h).support, Operators.GoodQuartic m := by
    intro m hm g1 g2 g3 g4 he
    obtain ⟨i, j, k, l, rfl⟩ := opq_support fs hnd h m hm
    simp only [K4, List.cons.injEq, and_true] at he
    obtain ⟨rfl, rfl, rfl, rfl⟩ := he
    exact ⟨rfl, rfl, rfl, rfl⟩
  have hq := Operators.quarticTensor_ok false fs hnd _ (opq_canonical fs h) ts hts hgood
  have hs : Operators.quartSpec false fs (operatorFromQuarticTensor fs h)
      = sortedPart fs (permSym h) := by
    funext i j k l
    exact opq_apply fs hnd h i j k l
  unfold getRpaTensor
  rw [hq, hs]
  change Except.ok _ = Except.ok _
  simp only [permSym_sortedPart fs hnd]

/-! ## The two implementations -/

/-- C39: `get_rpa_us_tensor` is the spin tensor with the last two axes exchanged. -/
theorem C39_us (n : ℕ) (U Up J Jp : ℂ) : rpaUs n U Up J Jp = swapLast (kanamoriSpin n U Up J Jp) := by
  funext a b c d
  simp only [rpaUs, swapLast, kanamoriSpin, kanamoriElement]
  by_cases h1 : a = b <;> by_cases h2 : a = c <;> by_cases h3 : a = d <;> by_cases h4 : b = c <;>
    by_cases h5 : b = d <;> by_cases h6 : c = d <;> simp_all [eq_comm]

/-- C39: `get_rpa_uc_tensor` is the charge tensor with the last two axes exchanged. -/
theorem C39_uc (n : ℕ) (U Up J Jp : ℂ) :
    rpaUc n U Up J Jp = swapLast (kanamoriCharge n U Up J Jp) := by
  funext a b c d
  simp only [rpaUc, swapLast, kanamoriCharge, kanamoriElement]
  by_cases h1 : a = b <;> by_cases h2 : a = c <;> by_cases h3 : a = d <;> by_cases h4 : b = c <;>
    by_cases h5 : b = d <;> by_cases h6 : c = d <;> simp_all [eq_comm]

/-- C39: the spinful Kanamori tensor splits back into the charge and spin tensors. -/
theorem C39_split (n : ℕ) (U Up J Jp : ℂ) : splitQuartic (kanamoriQuartic n U Up J Jp)
    = .ok (kanamoriCharge n U Up J Jp, kanamoriSpin n U Up J Jp) :=
  C38_split_of_assembled _ _

/-! ## The Hamiltonian -/

/-- Position of (spin, orbital) in the list of fundamental operators, spin slow. -/
def pos (fs : List ι) (hn : fs.length = 2 * n) (s : Fin 2) (a : Fin n) : Fin fs.length :=
  Fin.cast hn.symm (slot false s a)

/-- `c^+` of (spin, orbital) -/
noncomputable def cdag (fs : List ι) (hn : fs.length = 2 * n) (s : Fin 2) (a : Fin n) : Op ι :=
  dagger (c (fs.get (pos fs hn s a)))

/-- `c` of (spin, orbital) -/
noncomputable def cann (fs : List ι) (hn : fs.length = 2 * n) (s : Fin 2) (a : Fin n) : Op ι :=
  c (fs.get (pos fs hn s a))

/-- number operator -/
noncomputable def num (fs : List ι) (hn : fs.length = 2 * n) (s : Fin 2) (a : Fin n) : Op ι :=
  mul (cdag fs hn s a) (cann fs hn s a)

/-- `c^+_{i,down} c^+_{j,up} c_{j,down} c_{i,up}` -/
noncomputable def spinFlip (fs : List ι) (hn : fs.length = 2 * n) (i j : Fin n) : Op ι :=
  mul (mul (mul (cdag fs hn 1 i) (cdag fs hn 0 j)) (cann fs hn 1 j)) (cann fs hn 0 i)

/-- `c^+_{j,up} c^+_{j,down} c_{i,up} c_{i,down}` -/
noncomputable def pairHop (fs : List ι) (hn : fs.length = 2 * n) (i j : Fin n) : Op ι :=
  mul (mul (mul (cdag fs hn 0 j) (cdag fs hn 1 j)) (cann fs hn 0 i)) (cann fs hn 1 i)

/-- density-density part: `U sum_i n_{i,up} n_{i,down}
+ sum_{i>j,s,s'} (U' - J delta_{s,s'}) n_{i,s} n_{j,s'}` -/
noncomputable def densityPart (fs : List ι) (hn : fs.length = 2 * n) (U Up J : ℂ) : Op ι :=
  (∑ i, U • mul (num fs hn 0 i) (num fs hn 1 i))
    + ∑ i, ∑ j, if j < i then
        ∑ s, ∑ t, (Up - if s = t then J else 0) • mul (num fs hn s i) (num fs hn t j) else 0

/-- The Kanamori Hamiltonian with separate spin flip and pair hopping amplitudes:
density-density part `- sum_{i≠j} (J c^+_{i,down} c^+_{j,up} c_{j,down} c_{i,up}
+ J' c^+_{j,up} c^+_{j,down} c_{i,up} c_{i,down})`. -/
noncomputable def kanamoriH (fs : List ι) (hn : fs.length = 2 * n) (U Up J Jf Jp : ℂ) : Op ι :=
  densityPart fs hn U Up J
    + ∑ i, ∑ j, if i ≠ j then -(Jf • spinFlip fs hn i j + Jp • pairHop fs hn i j) else 0

/-- The Hamiltonian as printed in the docstring of `kanamori_quartic_tensor`
(rpa_tensor.py:201-209), with the hermitian conjugate inside the sum over `i ≠ j`. -/
noncomputable def docH (fs : List ι) (hn : fs.length = 2 * n) (U Up J : ℂ) : Op ι :=
  densityPart fs hn U Up J
    + ∑ i, ∑ j, if i ≠ j then
        -(J • (spinFlip fs hn i j + pairHop fs hn i j
          + dagger (spinFlip fs hn i j + pairHop fs hn i j))) else 0

/-- elementary tensor -/
noncomputable def unit4 {m : ℕ} (A B C D : Fin m) : Operators.T4 m := fun i j k l =>
  if i = A ∧ j = B ∧ k = C ∧ l = D then 1 else 0

theorem opq_unit4 (fs : List ι) (A B C D : Fin fs.length) :
    operatorFromQuarticTensor fs (unit4 A B C D) = nf (K4 fs A B C D) := by
  rw [operatorFromQuarticTensor_eq, Finset.sum_eq_single A, Finset.sum_eq_single B,
    Finset.sum_eq_single C, Finset.sum_eq_single D]
  · simp [unit4]
  · intro l _ h; simp [unit4, h]
  · simp
  · intro k _ h; exact Finset.sum_eq_zero fun l _ => by simp [unit4, h]
  · simp
  · intro j _ h
    exact Finset.sum_eq_zero fun k _ => Finset.sum_eq_zero fun l _ => by simp [unit4, h]
  · simp
  · intro i _ h
    exact Finset.sum_eq_zero fun j _ => Finset.sum_eq_zero fun k _ =>
      Finset.sum_eq_zero fun l _ => by simp [unit4, h]
  · simp

/-- `operator_from_quartic_tensor` as a linear map -/
noncomputable def opqL (fs : List ι) : Operators.T4 fs.length →ₗ[ℂ] Op ι where
  toFun := operatorFromQuarticTensor fs
  map_add' := Operators.opq_add fs
  map_smul' := Operators.opq_smul fs

theorem opqL_unit4 (fs : List ι) (A B C D : Fin fs.length) :
    opqL fs (unit4 A B C D) = nf (K4 fs A B C D) := opq_unit4 fs A B C D

theorem four_eq_nf (fs : List ι) (A B C D : Fin fs.length) :
    mul (mul (mul (dagger (c (fs.get A))) (dagger (c (fs.get B)))) (c (fs.get C)))
      (c (fs.get D)) = nf (K4 fs A B C D) := by
  rw [Operators.dagger_c, Operators.dagger_c, c, c, Operators.elem_eq_nf, Operators.elem_eq_nf,
    Operators.elem_eq_nf, Operators.elem_eq_nf, Operators.mul_nf, Operators.mul_nf,
    Operators.mul_nf]
  rfl

theorem num_num_eq_nf (fs : List ι) (hnd : fs.Nodup) (A B : Fin fs.length) (hAB : A ≠ B) :
    mul (mul (dagger (c (fs.get A))) (c (fs.get A))) (mul (dagger (c (fs.get B))) (c (fs.get B)))
      = nf (K4 fs A B B A) := by
  have hne : fs.get A ≠ fs.get B := fun h => hAB (hnd.injective_get h)
  apply Operators.ext_car _ _ (Operators.mul_canon _ _) (Operators.nf_canon _)
  intro A' _ _ e he
  rw [Operators.evalL_mul he, Operators.evalL_mul he, Operators.evalL_mul he, Operators.dagger_c,
    Operators.dagger_c, c, c, Operators.evalL_elem, Operators.evalL_elem, Operators.evalL_elem,
    Operators.evalL_elem, Operators.evalL_nf he]
  simp only [K4, List.map_cons, List.map_nil, List.prod_cons, List.prod_nil, mul_one]
  have h1 := Operators.car_swap he ⟨false, fs.get A⟩ ⟨true, fs.get B⟩
  have h2 := Operators.car_swap he ⟨false, fs.get A⟩ ⟨false, fs.get B⟩
  have c1 : Operators.contraction (⟨false, fs.get A⟩ : Gen ι) ⟨true, fs.get B⟩ = 0 := by
    rw [Operators.contraction, if_neg]; rintro ⟨_, h⟩; exact hne h
  have c2 : Operators.contraction (⟨false, fs.get A⟩ : Gen ι) ⟨false, fs.get B⟩ = 0 := by
    simp [Operators.contraction]
  rw [c1] at h1
  rw [c2] at h2
  simp only [map_zero, zero_sub, zero_smul] at h1 h2
  calc e ⟨true, fs.get A⟩ * e ⟨false, fs.get A⟩ * (e ⟨true, fs.get B⟩ * e ⟨false, fs.get B⟩)
      = e ⟨true, fs.get A⟩ * (e ⟨false, fs.get A⟩ * e ⟨true, fs.get B⟩) * e ⟨false, fs.get B⟩ := by
        simp only [mul_assoc]
    _ = -(e ⟨true, fs.get A⟩ * e ⟨true, fs.get B⟩ * (e ⟨false, fs.get A⟩ * e ⟨false, fs.get B⟩)) := by
        rw [h1]; noncomm_ring
    _ = _ := by rw [h2]; noncomm_ring

theorem pos_inj (fs : List ι) (hn : fs.length = 2 * n) {s t : Fin 2} {a b : Fin n} :
    pos fs hn s a = pos fs hn t b ↔ s = t ∧ a = b := by
  simp [pos, slot_inj]

/-- coefficients of the Kanamori Hamiltonian -/
noncomputable def hK (fs : List ι) (hn : fs.length = 2 * n) (U Up J Jf Jp : ℂ) :
    Operators.T4 fs.length :=
  (∑ i, U • unit4 (pos fs hn 0 i) (pos fs hn 1 i) (pos fs hn 1 i) (pos fs hn 0 i))
    + (∑ i, ∑ j, if j < i then
        ∑ s, ∑ t, (Up - if s = t then J else 0)
          • unit4 (pos fs hn s i) (pos fs hn t j) (pos fs hn t j) (pos fs hn s i) else 0)
    + ∑ i, ∑ j, if i ≠ j then
        -(Jf • unit4 (pos fs hn 1 i) (pos fs hn 0 j) (pos fs hn 1 j) (pos fs hn 0 i)
          + Jp • unit4 (pos fs hn 0 j) (pos fs hn 1 j) (pos fs hn 0 i) (pos fs hn 1 i)) else 0

theorem opq_hK (fs : List ι) (hnd : fs.Nodup) (hn : fs.length = 2 * n) (U Up J Jf Jp : ℂ) :
    operatorFromQuarticTensor fs (hK fs hn U Up J Jf Jp) = kanamoriH fs hn U Up J Jf Jp := by
  change opqL fs _ = _
  unfold hK kanamoriH densityPart
  simp only [map_add, map_sum, map_smul, apply_ite (opqL fs), map_zero, map_neg, opqL_unit4]
  refine congrArg₂ (· + ·) (congrArg₂ (· + ·) ?_ ?_) ?_
  · refine Finset.sum_congr rfl fun i _ => ?_
    rw [← num_num_eq_nf fs hnd _ _ (by rw [Ne, pos_inj]; simp)]
    rfl
  · refine Finset.sum_congr rfl fun i _ => Finset.sum_congr rfl fun j _ => ?_
    split_ifs with hij
    · refine Finset.sum_congr rfl fun s _ => Finset.sum_congr rfl fun t _ => ?_
      rw [← num_num_eq_nf fs hnd _ _ (by rw [Ne, pos_inj]; exact fun h => hij.ne' h.2)]
      rfl
    · rfl
  · refine Finset.sum_congr rfl fun i _ => Finset.sum_congr rfl fun j _ => ?_
    split_ifs
    · rw [← four_eq_nf, ← four_eq_nf]
      rfl
    · rfl

theorem sum_delta (x : Fin n) (f : Fin n → ℂ) : ∑ i, (if x = i then f i else 0) = f x := by
  simp

/-- value of the coefficient tensor -/
theorem hK_apply (fs : List ι) (hn : fs.length = 2 * n) (U Up J Jf Jp : ℂ)
    (s1 s2 s3 s4 : Fin 2) (x1 x2 x3 x4 : Fin n) :
    hK fs hn U Up J Jf Jp (pos fs hn s1 x1) (pos fs hn s2 x2) (pos fs hn s3 x3) (pos fs hn s4 x4)
      = (if s1 = 0 ∧ s2 = 1 ∧ s3 = 1 ∧ s4 = 0 ∧ x1 = x2 ∧ x1 = x3 ∧ x1 = x4 then U else 0)
        + (if s1 = s4 ∧ s2 = s3 ∧ x1 = x4 ∧ x2 = x3 ∧ x2 < x1 then Up - (if s1 = s2 then J else 0)
            else 0)
        - (if s1 = 1 ∧ s2 = 0 ∧ s3 = 1 ∧ s4 = 0 ∧ x1 = x4 ∧ x2 = x3 ∧ x1 ≠ x2 then Jf else 0)
        - (if s1 = 0 ∧ s2 = 1 ∧ s3 = 0 ∧ s4 = 1 ∧ x1 = x2 ∧ x3 = x4 ∧ x1 ≠ x3 then Jp else 0) := by
  have hu : ∀ (t1 t2 t3 t4 : Fin 2) (y1 y2 y3 y4 : Fin n),
      unit4 (pos fs hn t1 y1) (pos fs hn t2 y2) (pos fs hn t3 y3) (pos fs hn t4 y4)
        (pos fs hn s1 x1) (pos fs hn s2 x2) (pos fs hn s3 x3) (pos fs hn s4 x4)
      = if s1 = t1 ∧ x1 = y1 ∧ s2 = t2 ∧ x2 = y2 ∧ s3 = t3 ∧ x3 = y3 ∧ s4 = t4 ∧ x4 = y4
          then (1 : ℂ) else 0 := by
    intro t1 t2 t3 t4 y1 y2 y3 y4
    simp only [unit4, pos_inj, and_assoc]
  have happ : ∀ (P : Prop) [Decidable P] (f : Operators.T4 fs.length) (i j k l : Fin fs.length),
      (if P then f else 0) i j k l = if P then f i j k l else 0 := by
    intro P _ f i j k l; split_ifs <;> rfl
  have e1 : ∑ i, U * (if s1 = 0 ∧ x1 = i ∧ s2 = 1 ∧ x2 = i ∧ s3 = 1 ∧ x3 = i ∧ s4 = 0 ∧ x4 = i
      then (1 : ℂ) else 0)
      = if s1 = 0 ∧ s2 = 1 ∧ s3 = 1 ∧ s4 = 0 ∧ x1 = x2 ∧ x1 = x3 ∧ x1 = x4 then U else 0 := by
    rw [Finset.sum_eq_single x1]
    · simp only [mul_ite, mul_one, mul_zero]
      congr 1
      simp only [eq_comm, eq_iff_iff]
      tauto
    · intro b _ hb
      rw [if_neg, mul_zero]
      rintro ⟨_, h, _⟩; exact hb h.symm
    · simp
  have e2 : ∑ i, ∑ j, (if j < i then ∑ s, ∑ t, (Up - if s = t then J else 0)
        * (if s1 = s ∧ x1 = i ∧ s2 = t ∧ x2 = j ∧ s3 = t ∧ x3 = j ∧ s4 = s ∧ x4 = i
          then (1 : ℂ) else 0) else 0)
      = if s1 = s4 ∧ s2 = s3 ∧ x1 = x4 ∧ x2 = x3 ∧ x2 < x1 then Up - (if s1 = s2 then J else 0)
            else 0 := by
    rw [Finset.sum_eq_single x1, Finset.sum_eq_single x2]
    · by_cases hlt : x2 < x1
      · rw [if_pos hlt, Finset.sum_eq_single s1, Finset.sum_eq_single s2]
        · simp only [mul_ite, mul_one, mul_zero]
          congr 1
          simp only [hlt, eq_comm, eq_iff_iff]
          tauto
        · intro b _ hb
          rw [if_neg (c := s1 = _ ∧ _), mul_zero]
          rintro ⟨_, _, h, _⟩; exact hb h.symm
        · simp
        · intro b _ hb
          refine Finset.sum_eq_zero fun t _ => ?_
          rw [if_neg (c := s1 = _ ∧ _), mul_zero]
          rintro ⟨h, _⟩; exact hb h.symm
        · simp
      · simp [hlt]
    · intro b _ hb
      split_ifs
      · refine Finset.sum_eq_zero fun s _ => Finset.sum_eq_zero fun t _ => ?_
        rw [if_neg (c := s1 = _ ∧ _), mul_zero]
        rintro ⟨_, _, _, h, _⟩; exact hb h.symm
      · rfl
    · simp
    · intro b _ hb
      refine Finset.sum_eq_zero fun j _ => ?_
      split_ifs
      · refine Finset.sum_eq_zero fun s _ => Finset.sum_eq_zero fun t _ => ?_
        rw [if_neg (c := s1 = _ ∧ _), mul_zero]
        rintro ⟨_, h, _⟩; exact hb h.symm
      · rfl
    · simp
  have e3 : ∑ i, ∑ j, (if i ≠ j then
      -(Jf * (if s1 = 1 ∧ x1 = i ∧ s2 = 0 ∧ x2 = j ∧ s3 = 1 ∧ x3 = j ∧ s4 = 0 ∧ x4 = i
          then (1 : ℂ) else 0)
        + Jp * (if s1 = 0 ∧ x1 = j ∧ s2 = 1 ∧ x2 = j ∧ s3 = 0 ∧ x3 = i ∧ s4 = 1 ∧ x4 = i
          then (1 : ℂ) else 0)) else 0)
      = -(if s1 = 1 ∧ s2 = 0 ∧ s3 = 1 ∧ s4 = 0 ∧ x1 = x4 ∧ x2 = x3 ∧ x1 ≠ x2 then Jf else 0)
        - (if s1 = 0 ∧ s2 = 1 ∧ s3 = 0 ∧ s4 = 1 ∧ x1 = x2 ∧ x3 = x4 ∧ x1 ≠ x3 then Jp else 0) := by
    have f1 : ∑ i, ∑ j, (if i ≠ j then
        (Jf * (if s1 = 1 ∧ x1 = i ∧ s2 = 0 ∧ x2 = j ∧ s3 = 1 ∧ x3 = j ∧ s4 = 0 ∧ x4 = i
          then (1 : ℂ) else 0)) else 0)
        = (if s1 = 1 ∧ s2 = 0 ∧ s3 = 1 ∧ s4 = 0 ∧ x1 = x4 ∧ x2 = x3 ∧ x1 ≠ x2 then Jf else 0) := by
      rw [Finset.sum_eq_single x1, Finset.sum_eq_single x2]
      · simp only [mul_ite, mul_one, mul_zero, ← ite_and]
        congr 1
        simp only [eq_comm, eq_iff_iff, ne_eq]
        tauto
      · intro b _ hb
        rw [if_neg (c := s1 = 1 ∧ _), mul_zero, ite_self]
        rintro ⟨_, _, _, h, _⟩; exact hb h.symm
      · simp
      · intro b _ hb
        refine Finset.sum_eq_zero fun j _ => ?_
        rw [if_neg (c := s1 = 1 ∧ _), mul_zero, ite_self]
        rintro ⟨_, h, _⟩; exact hb h.symm
      · simp
    have f2 : ∑ i, ∑ j, (if i ≠ j then
        (Jp * (if s1 = 0 ∧ x1 = j ∧ s2 = 1 ∧ x2 = j ∧ s3 = 0 ∧ x3 = i ∧ s4 = 1 ∧ x4 = i
          then (1 : ℂ) else 0)) else 0)
        = (if s1 = 0 ∧ s2 = 1 ∧ s3 = 0 ∧ s4 = 1 ∧ x1 = x2 ∧ x3 = x4 ∧ x1 ≠ x3 then Jp else 0) := by
      rw [Finset.sum_eq_single x3, Finset.sum_eq_single x1]
      · simp only [mul_ite, mul_one, mul_zero, ← ite_and]
        congr 1
        simp only [eq_comm, eq_iff_iff, ne_eq]
        tauto
      · intro b _ hb
        rw [if_neg (c := s1 = 0 ∧ _), mul_zero, ite_self]
        rintro ⟨_, h, _⟩; exact hb h.symm
      · simp
      · intro b _ hb
        refine Finset.sum_eq_zero fun j _ => ?_
        rw [if_neg (c := s1 = 0 ∧ _), mul_zero, ite_self]
        rintro ⟨_, _, _, _, _, h, _⟩; exact hb h.symm
      · simp
    rw [← f1, ← f2, ← Finset.sum_neg_distrib, ← Finset.sum_sub_distrib]
    refine Finset.sum_congr rfl fun i _ => ?_
    rw [← Finset.sum_neg_distrib, ← Finset.sum_sub_distrib]
    refine Finset.sum_congr rfl fun j _ => ?_
    split_ifs <;> ring
  unfold hK
  simp only [Pi.add_apply, Finset.sum_apply, Pi.smul_apply, happ, Pi.neg_apply, hu, smul_eq_mul]
  rw [e1, e2, e3]
  ring

set_option maxHeartbeats 1000000 in
/-- the antisymmetrised coefficients in vertex order -/
theorem kanamori_tensor (fs : List ι) (hn : fs.length = 2 * n) (U Up J Jp : ℂ)
    (s t u v : Fin 2) (a b c d : Fin n) :
    4 * permSym (hK fs hn U Up J J Jp) (pos fs hn t b) (pos fs hn v d) (pos fs hn s a) (pos fs hn u c)
      = spinForm (fun a b c d => -kanamoriCharge n U Up J Jp a b c d) (kanamoriSpin n U Up J Jp)
          s t u v a b c d := by
  rw [permSym_eq]
  simp only [hK_apply, spinForm, kanamoriCharge, kanamoriSpin, kanamoriElement]
  fin_cases s <;> fin_cases t <;> fin_cases u <;> fin_cases v <;>
    simp only [Fin.zero_eta, Fin.mk_one, Fin.isValue, zero_ne_one, one_ne_zero, true_and, and_true,
      false_and, and_false, if_true, if_false, and_self]
  all_goals
    have hlt : ∀ x y : Fin n, x < y → x ≠ y ∧ y ≠ x ∧ ¬ y < x := fun x y h =>
      ⟨h.ne, h.ne', h.not_gt⟩
    rcases eq_or_ne a b with rfl | h1
    · rcases eq_or_ne c d with rfl | h2
      · rcases lt_trichotomy a c with h | rfl | h
        · obtain ⟨e1, e2, e3⟩ := hlt _ _ h
          try simp only [e1, e2, e3, h, ne_eq, not_true_eq_false, not_false_eq_true, and_true, and_false,
            and_self, true_and, false_and, if_true, if_false]
          ring
        · first | (simp; done) | (simp; ring)
        · obtain ⟨e1, e2, e3⟩ := hlt _ _ h
          try simp only [e1, e2, e3, h, ne_eq, not_true_eq_false, not_false_eq_true, and_true, and_false,
            and_self, true_and, false_and, if_true, if_false]
          ring
      · have h2' := h2.symm
        rcases eq_or_ne a c with rfl | h3
        · simp [h2, h2']
        · have h3' := h3.symm
          simp [h2, h2', h3, h3']
    · have h1' := h1.symm
      rcases eq_or_ne a d with rfl | h2
      · rcases eq_or_ne b c with rfl | h3
        · rcases lt_or_gt_of_ne h1 with h | h <;>
          · obtain ⟨e1, e2, e3⟩ := hlt _ _ h
            try simp only [e1, e2, e3, h, ne_eq, not_true_eq_false, not_false_eq_true, and_true,
              and_false, and_self, true_and, false_and, if_true, if_false]
            ring
        · have h3' := h3.symm
          simp [h1, h1', h3, h3']
      · have h2' := h2.symm
        rcases eq_or_ne a c with rfl | h3
        · rcases eq_or_ne b d with rfl | h4
          · first | (simp [h1, h1']; done) | (simp [h1, h1']; ring)
          · simp [h1, h1', h2, h2', h4, h4.symm]
        · simp [h1, h1', h2, h2', h3, h3.symm]

/-- C39: the tensor of `kanamori_quartic_tensor` is the RPA tensor of the Kanamori Hamiltonian, for
every list of fundamental operators ordered spin slow, and every `U`, `U'`, `J`, `J'`. -/
theorem C39_hamiltonian (fs : List ι) (hnd : fs.Nodup) (hn : fs.length = 2 * n)
    (U Up J Jp : ℂ) (ts : List (Mono ι × ℂ)) (hts : Enumerates ts (kanamoriH fs hn U Up J J Jp)) :
    ∃ Γ, getRpaTensor fs ts = .ok Γ ∧ ∀ i j k l : Fin (2 * n),
      Γ (Fin.cast hn.symm i) (Fin.cast hn.symm j) (Fin.cast hn.symm k) (Fin.cast hn.symm l)
        = kanamoriQuartic n U Up J Jp i j k l := by
  rw [← opq_hK fs hnd] at hts
  refine ⟨_, C37_of_tensor fs hnd _ ts hts, fun i j k l => ?_⟩
  obtain ⟨s, a, rfl⟩ := slot_cases false i
  obtain ⟨t, b, rfl⟩ := slot_cases false j
  obtain ⟨u, c, rfl⟩ := slot_cases false k
  obtain ⟨v, d, rfl⟩ := slot_cases false l
  have h := congrFun (congrFun (congrFun (congrFun (block_quartic (kanamoriCharge n U Up J Jp)
    (kanamoriSpin n U Up J Jp) s t u v) a) b) c) d
  exact (kanamori_tensor fs hn U Up J Jp s t u v a b c d).trans h.symm

theorem spinFlip_nf (fs : List ι) (hn : fs.length = 2 * n) (i j : Fin n) : spinFlip fs hn i j
    = nf (K4 fs (pos fs hn 1 i) (pos fs hn 0 j) (pos fs hn 1 j) (pos fs hn 0 i)) :=
  four_eq_nf fs _ _ _ _

theorem pairHop_nf (fs : List ι) (hn : fs.length = 2 * n) (i j : Fin n) : pairHop fs hn i j
    = nf (K4 fs (pos fs hn 0 j) (pos fs hn 1 j) (pos fs hn 0 i) (pos fs hn 1 i)) :=
  four_eq_nf fs _ _ _ _

theorem dagger_spinFlip (fs : List ι) (hn : fs.length = 2 * n) (i j : Fin n) :
    dagger (spinFlip fs hn i j) = spinFlip fs hn j i := by
  rw [spinFlip_nf, spinFlip_nf, Operators.dagger_nf_K4, Operators.nf_swap_dag,
    Operators.nf_swap_ann, neg_neg]

theorem dagger_pairHop (fs : List ι) (hn : fs.length = 2 * n) (i j : Fin n) :
    dagger (pairHop fs hn i j) = pairHop fs hn j i := by
  rw [pairHop_nf, pairHop_nf, Operators.dagger_nf_K4, Operators.nf_swap_dag,
    Operators.nf_swap_ann, neg_neg]

/-- The printed Hamiltonian counts spin flip and pair hopping twice. -/
theorem docH_eq (fs : List ι) (hn : fs.length = 2 * n) (U Up J : ℂ) :
    docH fs hn U Up J = kanamoriH fs hn U Up J (2 * J) (2 * J) := by
  unfold docH kanamoriH
  congr 1
  have h1 : ∀ (f : Fin n → Fin n → Op ι), ∑ i, ∑ j, (if i ≠ j then -(J • (f i j + f j i)) else 0)
      = ∑ i, ∑ j, if i ≠ j then -((2 * J) • f i j) else 0 := by
    intro f
    have e : ∀ i j, (if i ≠ j then -(J • (f i j + f j i)) else 0)
        = (if i ≠ j then -(J • f i j) else 0) + if j ≠ i then -(J • f j i) else 0 := by
      intro i j
      by_cases h : i = j
      · simp [h]
      · rw [if_pos h, if_pos h, if_pos (Ne.symm h), smul_add, neg_add]
    simp only [e, Finset.sum_add_distrib]
    rw [Finset.sum_comm (f := fun i j => if j ≠ i then -(J • f j i) else 0)]
    rw [← Finset.sum_add_distrib]
    refine Finset.sum_congr rfl fun i _ => ?_
    rw [← Finset.sum_add_distrib]
    refine Finset.sum_congr rfl fun j _ => ?_
    split_ifs
    · module
    · simp
  have h2 := h1 fun i j => spinFlip fs hn i j + pairHop fs hn i j
  simp only [Operators.dagger_add, dagger_spinFlip, dagger_pairHop]
  rw [h2]
  simp only [smul_add]

/-- C39: the formula printed in the docstring is not the interaction the function returns: because of
the hermitian conjugate inside the sum over `i ≠ j` it has twice the spin flip and pair hopping
amplitudes (two orbitals, `J = J' = 1`). -/
theorem C39_docstring_violated : ∃ (fs : List ℕ) (_ : fs.Nodup) (hn : fs.length = 2 * 2)
    (ts : List (Mono ℕ × ℂ)) (_ : Enumerates ts (docH fs hn 0 0 1)) (Γ : Operators.T4 fs.length),
    getRpaTensor fs ts = .ok Γ ∧ ∃ i j k l : Fin (2 * 2),
      Γ (Fin.cast hn.symm i) (Fin.cast hn.symm j) (Fin.cast hn.symm k) (Fin.cast hn.symm l)
        ≠ kanamoriQuartic 2 0 0 1 1 i j k l := by
  have hnd : ([0, 1, 2, 3] : List ℕ).Nodup := by simp
  have hn : ([0, 1, 2, 3] : List ℕ).length = 2 * 2 := rfl
  obtain ⟨ts, hts⟩ := Operators.exists_enumerates (docH [0, 1, 2, 3] hn 0 0 1)
  have hts' := hts
  rw [docH_eq, ← opq_hK _ hnd] at hts'
  refine ⟨_, hnd, hn, ts, hts, _, C37_of_tensor _ hnd _ ts hts', slot false 0 0, slot false 0 1,
    slot false 1 0, slot false 1 1, ?_⟩
  have h := congrFun (congrFun (congrFun (congrFun (block_quartic (kanamoriCharge 2 0 0 1 1)
    (kanamoriSpin 2 0 0 1 1) 0 0 1 1) 0) 1) 0) 1
  change 4 * permSym (hK [0, 1, 2, 3] hn 0 0 1 (2 * 1) (2 * 1)) (pos _ hn 0 1) (pos _ hn 1 1)
    (pos _ hn 0 0) (pos _ hn 1 0)
    ≠ block false (quarticFromChargeSpin (kanamoriCharge 2 0 0 1 1) (kanamoriSpin 2 0 0 1 1))
      0 0 1 1 0 1 0 1
  rw [h, permSym_eq]
  simp only [hK_apply, spinForm, kanamoriCharge, kanamoriSpin, kanamoriElement]
  simp
  norm_num

/-- C39, example: two orbitals, the Hamiltonian is enumerated and the tensor has the four expected
kinds of elements. -/
example : ∃ (ts : List (Mono ℕ × ℂ)),
    Enumerates ts (kanamoriH [0, 1, 2, 3] (n := 2) rfl 4 2 1 1 1) ∧
    kanamoriQuartic 2 4 2 1 1 (slot false 0 0) (slot false 0 0) (slot false 1 0) (slot false 1 0)
      = -4 ∧
    kanamoriQuartic 2 4 2 1 1 (slot false 0 0) (slot false 0 0) (slot false 1 1) (slot false 1 1)
      = -2 ∧
    kanamoriQuartic 2 4 2 1 1 (slot false 0 0) (slot false 0 0) (slot false 0 1) (slot false 0 1)
      = -1 ∧
    kanamoriQuartic 2 4 2 1 1 (slot false 0 0) (slot false 0 1) (slot false 1 0) (slot false 1 1)
      = -1 := by
  obtain ⟨ts, hts⟩ := Operators.exists_enumerates (kanamoriH [0, 1, 2, 3] (n := 2) rfl 4 2 1 1 1)
  have h : ∀ s t u v a b c d, kanamoriQuartic 2 4 2 1 1 (slot false s a) (slot false t b)
      (slot false u c) (slot false v d) = spinForm (fun a b c d => -kanamoriCharge 2 4 2 1 1 a b c d)
        (kanamoriSpin 2 4 2 1 1) s t u v a b c d := fun s t u v a b c d =>
    congrFun (congrFun (congrFun (congrFun (block_quartic (kanamoriCharge 2 4 2 1 1)
      (kanamoriSpin 2 4 2 1 1) s t u v) a) b) c) d
  refine ⟨ts, hts, ?_, ?_, ?_, ?_⟩ <;> rw [h] <;>
    simp [spinForm, kanamoriCharge, kanamoriSpin, kanamoriElement] <;> norm_num

end Verif.RpaTensor
