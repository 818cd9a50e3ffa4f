import Verif.Basis.Lemmas
import Verif.Operators.Props

/-!
# C104: the interaction tensor of a Hamiltonian in a new basis
-/

set_option linter.unusedSectionVars false

noncomputable section

namespace Verif.Basis

open Finsupp hiding some
open Verif.Operators (Op Mono Gen K4 nf Canonical IsQuartic Enumerates operatorFromQuarticTensor permSym
  singleParticleTransform getRpaTensor permSym_eq)

variable {ι : Type} [LinearOrder ι]

theorem sum4 {κ M : Type*} [Fintype κ] [AddCommMonoid M] (F : κ → κ → κ → κ → M) :
    ∑ i, ∑ j, ∑ k, ∑ l, F i j k l = ∑ q : κ × κ × κ × κ, F q.1 q.2.1 q.2.2.1 q.2.2.2 := by
  simp only [Fintype.sum_prod_type]

open Classical in
/-- the part of a tensor on the ordered indices -/
def sortedPart (fs : List ι) (E : Operators.T4 fs.length) : Operators.T4 fs.length := fun i j k l =>
  if fs.get i < fs.get j ∧ fs.get l < fs.get k then E i j k l else 0

theorem sortedPart_perm (fs : List ι) (hnd : fs.Nodup) (E : Operators.T4 fs.length)
    (h1 : ∀ i j k l, E j i k l = -E i j k l) (h2 : ∀ i j k l, E i j l k = -E i j k l) :
    permSym (fun i j k l => 4 * sortedPart fs E i j k l) = E := by
  have h0 : ∀ i k l, E i i k l = 0 := fun i k l => by
    have := h1 i i k l
    linear_combination (1 / 2) * this
  have h0' : ∀ i j k, E i j k k = 0 := fun i j k => by
    have := h2 i j k k
    linear_combination (1 / 2) * this
  have hne : ∀ i j, i ≠ j → fs.get i ≠ fs.get j := fun i j h h' => h (List.nodup_iff_injective_get.mp hnd h')
  funext i j k l
  rw [permSym_eq]
  unfold sortedPart
  by_cases hij : i = j
  · subst hij
    rw [h0]
    ring
  by_cases hkl : k = l
  · subst hkl
    rw [h0']
    ring
  rcases lt_or_gt_of_ne (hne i j hij) with h | h <;> rcases lt_or_gt_of_ne (hne k l hkl) with h' | h' <;>
    simp only [h, h', not_lt_of_gt h, not_lt_of_gt h', and_self, and_true, and_false, if_true, if_false] <;>
    [rw [h2 i j k l]; skip; rw [h2 j i k l, h1 i j k l]; rw [h1 i j k l]] <;> ring

theorem opq_single (fs : List ι) (hnd : fs.Nodup) (D : Operators.T4 fs.length) :
    operatorFromQuarticTensor fs D = ∑ i, ∑ j, ∑ k, ∑ l,
      (single (K4 fs i j k l) (4 * sortedPart fs (permSym D) i j k l) : Op ι) := by
  have h1 : permSym D = permSym (fun i j k l => 4 * sortedPart fs (permSym D) i j k l) :=
    (sortedPart_perm fs hnd (permSym D) (fun i j k l => by simp only [permSym_eq]; ring)
      (fun i j k l => by simp only [permSym_eq]; ring)).symm
  rw [← Operators.opq_permSym, h1, Operators.opq_permSym, Operators.operatorFromQuarticTensor_eq, ← h1]
  refine Finset.sum_congr rfl fun i _ => Finset.sum_congr rfl fun j _ => Finset.sum_congr rfl fun k _ =>
    Finset.sum_congr rfl fun l _ => ?_
  by_cases h : fs.get i < fs.get j ∧ fs.get l < fs.get k
  · rw [Operators.nf_sorted _ ((Operators.K4_sorted fs i j k l).mpr h), smul_single, smul_eq_mul, mul_one]
  · unfold sortedPart
    rw [if_neg h, mul_zero, zero_smul, single_zero]

theorem opq_apply (fs : List ι) (hnd : fs.Nodup) (D : Operators.T4 fs.length) (i j k l : Fin fs.length) :
    operatorFromQuarticTensor fs D (K4 fs i j k l) = 4 * sortedPart fs (permSym D) i j k l := by
  rw [opq_single fs hnd, sum4, Finsupp.finsetSum_apply, Finset.sum_eq_single (i, j, k, l)]
  · exact single_eq_same
  · rintro ⟨i', j', k', l'⟩ _ hne
    refine single_eq_of_ne ?_
    intro h
    obtain ⟨rfl, rfl, rfl, rfl⟩ := Operators.K4_inj fs hnd _ _ _ _ _ _ _ _ h
    exact hne rfl
  · exact fun h => absurd (Finset.mem_univ _) h

theorem opq_quartic (fs : List ι) (hnd : fs.Nodup) (D : Operators.T4 fs.length) :
    ∀ m ∈ (operatorFromQuarticTensor fs D).support, IsQuartic fs m := by
  intro m hm
  by_contra h
  refine (mem_support_iff.mp hm) ?_
  rw [opq_single fs hnd, sum4, Finsupp.finsetSum_apply]
  refine Finset.sum_eq_zero fun q _ => single_eq_of_ne ?_
  rintro rfl
  exact h ((Operators.isQuartic_iff fs _).mpr ⟨_, _, _, _, rfl⟩)

theorem opq_canonical (fs : List ι) (D : Operators.T4 fs.length) : Canonical (operatorFromQuarticTensor fs D) := by
  rw [← Operators.mem_canon, Operators.operatorFromQuarticTensor_eq]
  exact Submodule.sum_mem _ fun i _ => Submodule.sum_mem _ fun j _ => Submodule.sum_mem _ fun k _ =>
    Submodule.sum_mem _ fun l _ => Submodule.smul_mem _ _ (Operators.nf_canon _)

theorem good_of_quartic (fs : List ι) (x : Op ι) (hq : ∀ m ∈ x.support, IsQuartic fs m) :
    ∀ m ∈ x.support, Operators.GoodQuartic m := by
  intro m hm g1 g2 g3 g4 he
  have := (hq m hm).1
  rw [he] at this
  simpa using this

/-- The tensor that `get_rpa_tensor` reads from an operator built from the elements `D`. -/
theorem getRpaTensor_opq (fs : List ι) (hnd : fs.Nodup) (D : Operators.T4 fs.length) (ts : List (Mono ι × ℂ))
    (hts : Enumerates ts (operatorFromQuarticTensor fs D)) :
    getRpaTensor fs ts = .ok fun a b c d => 4 * permSym D b d a c := by
  unfold getRpaTensor
  rw [Operators.quarticTensor_ok false fs hnd _ (opq_canonical fs D) ts hts
    (good_of_quartic fs _ (opq_quartic fs hnd D))]
  have h1 : Operators.quartSpec false fs (operatorFromQuarticTensor fs D)
      = fun i j k l => 4 * sortedPart fs (permSym D) i j k l := by
    funext i j k l
    exact opq_apply fs hnd D i j k l
  rw [h1]
  show Except.ok _ = Except.ok _
  rw [sortedPart_perm fs hnd (permSym D) (fun i j k l => by simp only [permSym_eq]; ring)
      (fun i j k l => by simp only [permSym_eq]; ring)]

theorem permSym_rot4 {n : ℕ} (A B : Matrix (Fin n) (Fin n) ℂ) (D : Operators.T4 n) :
    permSym (rot4 A A B B D) = rot4 A A B B (permSym D) := by
  have s1 : ∀ (D : Operators.T4 n) i j k l, rot4 A A B B D j i k l = rot4 A A B B (fun i j k l => D j i k l) i j k l := by
    intro D i j k l
    simp only [rot4]
    rw [Finset.sum_comm]
    refine Finset.sum_congr rfl fun a _ => Finset.sum_congr rfl fun b _ => Finset.sum_congr rfl fun c _ =>
      Finset.sum_congr rfl fun d _ => ?_
    ring
  have s2 : ∀ (D : Operators.T4 n) i j k l, rot4 A A B B D i j l k = rot4 A A B B (fun i j k l => D i j l k) i j k l := by
    intro D i j k l
    simp only [rot4]
    refine Finset.sum_congr rfl fun a _ => Finset.sum_congr rfl fun b _ => ?_
    rw [Finset.sum_comm]
    refine Finset.sum_congr rfl fun c _ => Finset.sum_congr rfl fun d _ => ?_
    ring
  funext i j k l
  rw [permSym_eq, s1 D i j k l, s2 D i j k l, s2 D j i k l, s1 (fun i j k l => D i j l k) i j k l]
  simp only [rot4, permSym_eq, ← Finset.sum_sub_distrib, ← Finset.sum_add_distrib, Finset.mul_sum]
  refine Finset.sum_congr rfl fun a _ => Finset.sum_congr rfl fun b _ => Finset.sum_congr rfl fun c _ =>
      Finset.sum_congr rfl fun d _ => ?_
  ring

/-- The elements of the operator after the substitution. -/
theorem transform_opq (fs : List ι) (hnd : fs.Nodup) (U : Matrix (Fin fs.length) (Fin fs.length) ℂ) (x : Op ι)
    (hx : Canonical x) (hq : ∀ m ∈ x.support, IsQuartic fs m) (ts : List (Mono ι × ℂ)) (hts : Enumerates ts x) :
    singleParticleTransform fs U ts = operatorFromQuarticTensor fs
      (rot4 U.conjTranspose U.conjTranspose U.transpose U.transpose fun i j k l => x (K4 fs i j k l)) := by
  classical
  have hopq : operatorFromQuarticTensor fs (fun i j k l => x (K4 fs i j k l)) = x := by
    rw [Operators.opq_coefficients fs hnd x hx, Finsupp.filter_eq_self_iff]
    exact fun m hm => hq m (mem_support_iff.mpr hm)
  have hsing : x = ∑ i, ∑ j, ∑ k, ∑ l, (single (K4 fs i j k l) (x (K4 fs i j k l)) : Op ι) := by
    conv_lhs => rw [← hopq]
    rw [Operators.operatorFromQuarticTensor_eq]
    refine Finset.sum_congr rfl fun i _ => Finset.sum_congr rfl fun j _ => Finset.sum_congr rfl fun k _ =>
      Finset.sum_congr rfl fun l _ => ?_
    by_cases h0 : x (K4 fs i j k l) = 0
    · rw [h0, zero_smul, single_zero]
    · rw [Operators.nf_sorted _ (hx _ (mem_support_iff.mpr h0)), smul_single, smul_eq_mul, mul_one]
  unfold singleParticleTransform
  rw [Operators.substLoop_eq _ x ts hts]
  refine Operators.ext_car _ _ (Operators.substL_canon _ _) ((Operators.mem_canon _).mpr (opq_canonical fs _)) ?_
  intro A _ _ e he
  rw [Operators.evalL_transL fs U he.half x hx, Operators.operatorFromQuarticTensor_eq]
  conv_lhs => rw [hsing]
  simp only [map_sum, map_smul, Operators.evalL_single, Operators.evalL_nf he, K4, List.map_cons, List.map_nil,
    List.prod_cons, List.prod_nil, mul_one, Operators.substE_get fs hnd, if_true, Bool.false_eq_true, if_false,
    rot4]
  have hL : ∀ i j k l : Fin fs.length,
      (∑ m, starRingEnd ℂ (U i m) • e ⟨true, fs.get m⟩) * ((∑ m, starRingEnd ℂ (U j m) • e ⟨true, fs.get m⟩)
        * ((∑ m, U k m • e ⟨false, fs.get m⟩) * (∑ m, U l m • e ⟨false, fs.get m⟩)))
      = ∑ q : Fin fs.length × Fin fs.length × Fin fs.length × Fin fs.length,
        (starRingEnd ℂ (U i q.1) * starRingEnd ℂ (U j q.2.1) * U k q.2.2.1 * U l q.2.2.2) •
          (e ⟨true, fs.get q.1⟩ * (e ⟨true, fs.get q.2.1⟩ * (e ⟨false, fs.get q.2.2.1⟩ * e ⟨false, fs.get q.2.2.2⟩))) := by
    intro i j k l
    rw [← sum4 fun a b c d => (starRingEnd ℂ (U i a) * starRingEnd ℂ (U j b) * U k c * U l d) •
          (e ⟨true, fs.get a⟩ * (e ⟨true, fs.get b⟩ * (e ⟨false, fs.get c⟩ * e ⟨false, fs.get d⟩)))]
    rw [Finset.sum_mul]
    refine Finset.sum_congr rfl fun a _ => ?_
    rw [Finset.sum_mul, Finset.mul_sum]
    refine Finset.sum_congr rfl fun b _ => ?_
    rw [Finset.sum_mul, Finset.mul_sum, Finset.mul_sum]
    refine Finset.sum_congr rfl fun c _ => ?_
    rw [Finset.mul_sum, Finset.mul_sum, Finset.mul_sum]
    refine Finset.sum_congr rfl fun d _ => ?_
    simp only [smul_mul_assoc, mul_smul_comm, smul_smul]
    congr 1
    ring
  simp only [hL, Finset.smul_sum, smul_smul, Finset.sum_smul]
  rw [sum4, Finset.sum_comm, sum4 fun i j k l => ∑ a, ∑ b, ∑ c, ∑ d, (U.conjTranspose i a * U.conjTranspose j b
    * U.transpose k c * U.transpose l d * x [⟨true, fs.get a⟩, ⟨true, fs.get b⟩, ⟨false, fs.get c⟩, ⟨false, fs.get d⟩]) •
    (e ⟨true, fs.get i⟩ * (e ⟨true, fs.get j⟩ * (e ⟨false, fs.get k⟩ * e ⟨false, fs.get l⟩)))]
  refine Finset.sum_congr rfl fun q _ => ?_
  rw [sum4]
  refine Finset.sum_congr rfl fun q' _ => ?_
  congr 1
  simp only [Matrix.conjTranspose_apply, Matrix.transpose_apply, starRingEnd_apply]
  ring

/-- the transposition `(2, 0, 3, 1)` of the axes -/
def reorder (n : ℕ) : Fin n × Fin n × Fin n × Fin n ≃ Fin n × Fin n × Fin n × Fin n where
  toFun q := (q.2.2.1, q.1, q.2.2.2, q.2.1)
  invFun p := (p.2.1, p.2.2.2, p.1, p.2.2.1)
  left_inv _ := rfl
  right_inv _ := rfl

/-- C104: the tensor that `get_rpa_tensor` reads from a Hamiltonian that has been written with new operators
`c' = S c` (`operator_single_particle_transform` with the matrix `S†`) is the original one with its second and fourth index
multiplied by `S` and its first and third index by the complex conjugate. -/
theorem C104_tensor (fs : List ι) (hnd : fs.Nodup) (S : Matrix (Fin fs.length) (Fin fs.length) ℂ) (x : Op ι)
    (hx : Canonical x) (hq : ∀ m ∈ x.support, IsQuartic fs m) (ts ts' : List (Mono ι × ℂ)) (hts : Enumerates ts x)
    (hts' : Enumerates ts' (singleParticleTransform fs S.conjTranspose ts)) :
    ∃ Γ, getRpaTensor fs ts = .ok Γ ∧ getRpaTensor fs ts' = .ok (rotChi S Γ) := by
  classical
  have hopq : operatorFromQuarticTensor fs (fun i j k l => x (K4 fs i j k l)) = x := by
    rw [Operators.opq_coefficients fs hnd x hx, Finsupp.filter_eq_self_iff]
    exact fun m hm => hq m (mem_support_iff.mpr hm)
  refine ⟨_, getRpaTensor_opq fs hnd _ ts (hopq.symm ▸ hts), ?_⟩
  rw [transform_opq fs hnd _ x hx hq ts hts] at hts'
  rw [getRpaTensor_opq fs hnd _ ts' hts', permSym_rot4]
  congr 1
  funext a b c d
  simp only [rotChi, rot4, Matrix.conjTranspose_conjTranspose, Finset.mul_sum]
  rw [sum4, sum4]
  refine Fintype.sum_equiv (reorder fs.length) _ _ fun q => ?_
  simp only [reorder, Equiv.coe_fn_mk, cj_eq]
  ring

/-- Example: a density-density interaction on two orbitals, rotated by a complex matrix. -/
example : ∃ (x : Op ℕ) (ts ts' : List (Mono ℕ × ℂ)) (S : Matrix (Fin 2) (Fin 2) ℂ), Unitary S ∧ cj S ≠ S ∧
    Canonical x ∧ x ≠ 0 ∧ (∀ m ∈ x.support, IsQuartic [0, 1] m) ∧ Enumerates ts x ∧
    Enumerates ts' (singleParticleTransform [0, 1] S.conjTranspose ts) := by
  obtain ⟨ts, hts⟩ := Operators.exists_enumerates
    (single [⟨true, 0⟩, ⟨true, 1⟩, ⟨false, 1⟩, ⟨false, 0⟩] 3 : Op ℕ)
  obtain ⟨ts', hts'⟩ := Operators.exists_enumerates
    (singleParticleTransform [0, 1] (!![0, Complex.I; 1, 0] : Matrix (Fin 2) (Fin 2) ℂ).conjTranspose ts)
  refine ⟨_, ts, ts', !![0, Complex.I; 1, 0], ?_, ?_, ?_, ?_, ?_, hts, hts'⟩
  · unfold Unitary
    ext i j
    fin_cases i <;> fin_cases j <;> simp [Matrix.mul_apply, Fin.sum_univ_two]
  · intro h
    have := congrFun (congrFun h 0) 1
    simp [cj, Complex.ext_iff] at this
    norm_num at this
  · intro m hm
    rw [Finsupp.support_single_ne_zero _ (by norm_num), Finset.mem_singleton] at hm
    subst hm
    exact (Operators.K4_sorted [0, 1] 0 1 1 0).mpr ⟨by norm_num, by norm_num⟩
  · exact single_ne_zero.mpr (by norm_num)
  · intro m hm
    rw [Finsupp.support_single_ne_zero _ (by norm_num), Finset.mem_singleton] at hm
    subst hm
    refine ⟨rfl, ?_⟩
    intro g hg
    simp only [List.mem_cons, List.not_mem_nil, or_false] at hg
    rcases hg with rfl | rfl | rfl | rfl <;> simp

end Verif.Basis
