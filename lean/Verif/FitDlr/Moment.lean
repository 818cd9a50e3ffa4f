import Verif.Operators.Props
import Verif.HartreeFock.Model
import Mathlib.Tactic.NoncommRing

/-!
# C101: the static self-energy

The second high frequency moment of the Green's function of a Hamiltonian `H` in a state is the expectation value of the
anticommutator `{[c_a, H], c^+_b}`. It is determined by the density matrix alone, for every state, interacting or not:
the density constraint of the constrained fit (`/repo/python/triqs_tprf/fitdlr.py:340-361`) and the mean field
(`/repo/python/triqs_tprf/hf_solver.py:142-146`) are this exact equation.
-/

noncomputable section

set_option linter.unusedSectionVars false

namespace Verif.FitDlr

open Verif.Operators

variable {ι : Type} [LinearOrder ι] {A : Type} [Ring A] [Algebra ℂ A]

/-- `{[c_a, H], c^+_b}` -/
def secondMoment (e : Gen ι → A) (H : A) (a b : ι) : A :=
  (e ⟨false, a⟩ * H - H * e ⟨false, a⟩) * e ⟨true, b⟩ + e ⟨true, b⟩ * (e ⟨false, a⟩ * H - H * e ⟨false, a⟩)

theorem secondMoment_add (e : Gen ι → A) (H K : A) (a b : ι) :
    secondMoment e (H + K) a b = secondMoment e H a b + secondMoment e K a b := by
  unfold secondMoment
  noncomm_ring

theorem secondMoment_smul (e : Gen ι → A) (z : ℂ) (H : A) (a b : ι) :
    secondMoment e (z • H) a b = z • secondMoment e H a b := by
  unfold secondMoment
  simp only [mul_smul_comm, smul_mul_assoc, ← smul_sub, ← smul_add]

theorem secondMoment_sum {κ : Type*} (e : Gen ι → A) (s : Finset κ) (H : κ → A) (a b : ι) :
    secondMoment e (∑ i ∈ s, H i) a b = ∑ i ∈ s, secondMoment e (H i) a b := by
  classical
  induction s using Finset.induction_on with
  | empty => simp [secondMoment]
  | insert i s hi ih => rw [Finset.sum_insert hi, Finset.sum_insert hi, secondMoment_add, ih]

variable {e : Gen ι → A} (he : CAR e)

include he

theorem secondMoment_quadratic (a b i j : ι) :
    secondMoment e (e ⟨true, i⟩ * e ⟨false, j⟩) a b
      = (contraction ⟨false, a⟩ ⟨true, i⟩ * contraction ⟨false, j⟩ ⟨true, b⟩) • (1 : A) := by
  have h1 : e ⟨false, a⟩ * (e ⟨true, i⟩ * e ⟨false, j⟩) - e ⟨true, i⟩ * e ⟨false, j⟩ * e ⟨false, a⟩
      = (e ⟨false, a⟩ * e ⟨true, i⟩ + e ⟨true, i⟩ * e ⟨false, a⟩) * e ⟨false, j⟩
        - e ⟨true, i⟩ * (e ⟨false, a⟩ * e ⟨false, j⟩ + e ⟨false, j⟩ * e ⟨false, a⟩) := by noncomm_ring
  have h0 : contraction (⟨false, a⟩ : Gen ι) ⟨false, j⟩ = 0 := by simp [contraction]
  rw [secondMoment, h1, he, he, h0, zero_smul, mul_zero, sub_zero, smul_mul_assoc, one_mul, smul_mul_assoc, mul_smul_comm,
    ← smul_add, he, smul_smul]

theorem secondMoment_quartic (p q a b c d : ι) :
    secondMoment e (e ⟨true, b⟩ * e ⟨true, d⟩ * e ⟨false, a⟩ * e ⟨false, c⟩) p q
      = contraction ⟨false, p⟩ ⟨true, b⟩ • (contraction ⟨false, c⟩ ⟨true, q⟩ • (e ⟨true, d⟩ * e ⟨false, a⟩)
          - contraction ⟨false, a⟩ ⟨true, q⟩ • (e ⟨true, d⟩ * e ⟨false, c⟩))
        - contraction ⟨false, p⟩ ⟨true, d⟩ • (contraction ⟨false, c⟩ ⟨true, q⟩ • (e ⟨true, b⟩ * e ⟨false, a⟩)
          - contraction ⟨false, a⟩ ⟨true, q⟩ • (e ⟨true, b⟩ * e ⟨false, c⟩)) := by
  have h0 : ∀ x y : ι, e ⟨false, x⟩ * e ⟨false, y⟩ + e ⟨false, y⟩ * e ⟨false, x⟩ = 0 := by
    intro x y
    rw [he]
    simp [contraction]
  have h0' : ∀ x y : ι, e ⟨true, x⟩ * e ⟨true, y⟩ + e ⟨true, y⟩ * e ⟨true, x⟩ = 0 := by
    intro x y
    rw [he]
    simp [contraction]
  have h1 : e ⟨false, p⟩ * (e ⟨true, b⟩ * e ⟨true, d⟩ * e ⟨false, a⟩ * e ⟨false, c⟩)
      - e ⟨true, b⟩ * e ⟨true, d⟩ * e ⟨false, a⟩ * e ⟨false, c⟩ * e ⟨false, p⟩
      = contraction ⟨false, p⟩ ⟨true, b⟩ • (e ⟨true, d⟩ * e ⟨false, a⟩ * e ⟨false, c⟩)
        - contraction ⟨false, p⟩ ⟨true, d⟩ • (e ⟨true, b⟩ * e ⟨false, a⟩ * e ⟨false, c⟩) := by
    have h : e ⟨false, p⟩ * (e ⟨true, b⟩ * e ⟨true, d⟩ * e ⟨false, a⟩ * e ⟨false, c⟩)
        - e ⟨true, b⟩ * e ⟨true, d⟩ * e ⟨false, a⟩ * e ⟨false, c⟩ * e ⟨false, p⟩
        = (e ⟨false, p⟩ * e ⟨true, b⟩ + e ⟨true, b⟩ * e ⟨false, p⟩) * (e ⟨true, d⟩ * e ⟨false, a⟩ * e ⟨false, c⟩)
          - e ⟨true, b⟩ * (e ⟨false, p⟩ * e ⟨true, d⟩ + e ⟨true, d⟩ * e ⟨false, p⟩) * (e ⟨false, a⟩ * e ⟨false, c⟩)
          + e ⟨true, b⟩ * e ⟨true, d⟩ * (e ⟨false, p⟩ * e ⟨false, a⟩ + e ⟨false, a⟩ * e ⟨false, p⟩) * e ⟨false, c⟩
          - e ⟨true, b⟩ * e ⟨true, d⟩ * e ⟨false, a⟩ * (e ⟨false, p⟩ * e ⟨false, c⟩ + e ⟨false, c⟩ * e ⟨false, p⟩) := by
      noncomm_ring
    rw [h, h0, h0, he, he]
    simp only [mul_zero, zero_mul, add_zero, sub_zero, smul_mul_assoc, mul_smul_comm, one_mul, mul_one, mul_assoc]
  have h2 : ∀ x : ι, e ⟨true, x⟩ * e ⟨false, a⟩ * e ⟨false, c⟩ * e ⟨true, q⟩
      + e ⟨true, q⟩ * (e ⟨true, x⟩ * e ⟨false, a⟩ * e ⟨false, c⟩)
      = contraction ⟨false, c⟩ ⟨true, q⟩ • (e ⟨true, x⟩ * e ⟨false, a⟩)
        - contraction ⟨false, a⟩ ⟨true, q⟩ • (e ⟨true, x⟩ * e ⟨false, c⟩) := by
    intro x
    have h : e ⟨true, x⟩ * e ⟨false, a⟩ * e ⟨false, c⟩ * e ⟨true, q⟩
        + e ⟨true, q⟩ * (e ⟨true, x⟩ * e ⟨false, a⟩ * e ⟨false, c⟩)
        = e ⟨true, x⟩ * e ⟨false, a⟩ * (e ⟨false, c⟩ * e ⟨true, q⟩ + e ⟨true, q⟩ * e ⟨false, c⟩)
          - e ⟨true, x⟩ * (e ⟨false, a⟩ * e ⟨true, q⟩ + e ⟨true, q⟩ * e ⟨false, a⟩) * e ⟨false, c⟩
          + (e ⟨true, x⟩ * e ⟨true, q⟩ + e ⟨true, q⟩ * e ⟨true, x⟩) * e ⟨false, a⟩ * e ⟨false, c⟩ := by noncomm_ring
    rw [h, h0', he, he]
    simp only [zero_mul, add_zero, smul_mul_assoc, mul_smul_comm, mul_one]
  rw [secondMoment, h1, ← h2 d, ← h2 b]
  simp only [sub_mul, mul_sub, smul_mul_assoc, mul_smul_comm, smul_add]
  abel

/-- C101, operators: for a Hamiltonian of a constant, quadratic and quartic terms over the given operators the second moment is
the quadratic matrix plus the RPA tensor contracted with one body operators. -/
theorem C101_operators (fs : List ι) (hnd : fs.Nodup) (x : Op ι) (hx : Canonical x)
    (hform : ∀ m ∈ x.support, m = [] ∨ (∃ i j, m = K2 fs i j) ∨ IsQuartic fs m)
    (ts : List (Mono ι × ℂ)) (hts : Enumerates ts x) (h : Fin fs.length → Fin fs.length → ℂ) (Γ : T4 fs.length)
    (hh : quadraticMatrixFromOperator fs ts = .ok h) (hΓ : getRpaTensor fs ts = .ok Γ) (a b : Fin fs.length) :
    secondMoment e (eval e x) (fs.get a) (fs.get b)
      = h a b • (1 : A) - ∑ c, ∑ d, Γ b a c d • (e ⟨true, fs.get d⟩ * e ⟨false, fs.get c⟩) := by
  classical
  have hget : ∀ i j : Fin fs.length, contraction (⟨false, fs.get i⟩ : Gen ι) ⟨true, fs.get j⟩ = if i = j then 1 else 0 := by
    intro i j
    simp [contraction, hnd.getElem_inj_iff, Fin.ext_iff]
  have hq : h = fun i j => x (K2 fs i j) := by
    have h1 := quadraticMatrix_ok fs hnd x ts hts (fun m hm g1 g2 hg => ?_)
    · exact Except.ok.inj (hh.symm.trans h1)
    · rcases hform m hm with h0 | ⟨i, j, h0⟩ | h0
      · rw [hg] at h0
        cases h0
      · rw [hg] at h0
        simp only [K2, List.cons.injEq, and_true] at h0
        obtain ⟨rfl, rfl⟩ := h0
        exact ⟨rfl, rfl⟩
      · have := h0.1
        rw [hg] at this
        simp at this
  obtain ⟨-, hanti, hquart⟩ := C37_rpa_tensor fs hnd x hx ts hts Γ hΓ
  have hanti1 := (C37_rpa_tensor fs hnd x hx ts hts Γ hΓ).1
  have hrest : x.filter (fun m => ¬ IsQuartic fs m) = Finsupp.single [] (x []) + quadLoop fs h := by
    ext m
    rw [Finsupp.add_apply]
    by_cases h2 : ∃ i j, m = K2 fs i j
    · obtain ⟨i, j, rfl⟩ := h2
      rw [Finsupp.filter_apply_pos _ _ (by simp [IsQuartic, K2]), quadLoop_apply fs hnd, hq,
        Finsupp.single_eq_of_ne (by simp [K2]), zero_add]
    · rw [quadLoop_apply_of_ne fs h m (fun i j hm => h2 ⟨i, j, hm⟩), add_zero]
      by_cases h0 : m = []
      · subst h0
        rw [Finsupp.filter_apply_pos _ _ (by simp [IsQuartic]), Finsupp.single_eq_same]
      · rw [Finsupp.single_eq_of_ne h0]
        by_cases h4 : IsQuartic fs m
        · exact Finsupp.filter_apply_neg _ _ (by simpa using h4)
        · rw [Finsupp.filter_apply_pos (fun m => ¬ IsQuartic fs m) x h4]
          by_contra hne
          rcases hform m (Finsupp.mem_support_iff.2 hne) with h5 | h5 | h5
          · exact h0 h5
          · exact h2 h5
          · exact h4 h5
  have hsplit : eval e x = eval e (x.filter (IsQuartic fs)) + (x [] • (1 : A)
      + ∑ i, ∑ j, h i j • (e ⟨true, fs.get i⟩ * e ⟨false, fs.get j⟩)) := by
    conv_lhs => rw [← Finsupp.filter_add_filter_not x (IsQuartic fs)]
    rw [eval_eq, map_add, ← eval_eq, hrest, map_add, evalL_single, quadLoop_eq]
    simp only [map_sum, map_smul, evalL_nf he, K2, List.map_cons, List.map_nil, List.prod_cons, List.prod_nil, mul_one]
  have hone : secondMoment e (1 : A) (fs.get a) (fs.get b) = 0 := by
    simp [secondMoment]
  rw [hsplit, hquart e he, secondMoment_add, secondMoment_add, secondMoment_smul, secondMoment_smul, hone, smul_zero, zero_add,
    add_comm]
  simp only [secondMoment_sum, secondMoment_smul, secondMoment_quadratic he, secondMoment_quartic he, hget]
  rw [sub_eq_add_neg]
  congr 1
  · simp only [mul_ite, mul_one, mul_zero, ite_smul, zero_smul, one_smul, smul_ite, smul_zero, Finset.sum_ite_eq, Finset.sum_ite_eq', Finset.mem_univ, if_true]
  · set E : Fin fs.length → Fin fs.length → A := fun d c => e ⟨true, fs.get d⟩ * e ⟨false, fs.get c⟩ with hE
    have key : ∑ a', ∑ b', ∑ c', ∑ d', Γ a' b' c' d' • ((if a = b' then (1 : ℂ) else 0) • ((if c' = b then (1 : ℂ) else 0) • E d' a'
          - (if a' = b then (1 : ℂ) else 0) • E d' c')
        - (if a = d' then (1 : ℂ) else 0) • ((if c' = b then (1 : ℂ) else 0) • E b' a' - (if a' = b then (1 : ℂ) else 0) • E b' c'))
        = (4 : ℂ) • -∑ c, ∑ d, Γ b a c d • E d c := by
      simp only [smul_sub, Finset.sum_sub_distrib, ite_smul, one_smul, zero_smul, smul_ite, smul_zero, Finset.sum_ite_irrel,
        Finset.sum_const_zero, Finset.sum_ite_eq, Finset.sum_ite_eq', Finset.mem_univ, if_true]
      have t1 : ∑ x, ∑ y, Γ x a b y • E y x = -∑ c, ∑ d, Γ b a c d • E d c := by
        simp only [← Finset.sum_neg_distrib, ← neg_smul, ← hanti1]
      have t3 : ∑ x, ∑ y, Γ x y b a • E y x = ∑ c, ∑ d, Γ b a c d • E d c := by
        refine Finset.sum_congr rfl fun x _ => Finset.sum_congr rfl fun y _ => ?_
        rw [hanti1 b y x a, hanti b a x y, neg_neg]
      have t4 : ∑ x, ∑ y, Γ b x y a • E x y = -∑ c, ∑ d, Γ b a c d • E d c := by
        rw [Finset.sum_comm]
        simp only [← Finset.sum_neg_distrib, ← neg_smul, ← hanti]
      rw [t1, t3, t4]
      module
    refine (congrArg (fun z => (1 / 4 : ℂ) • z) key).trans ?_
    rw [smul_smul, show (1 / 4 : ℂ) * 4 = 1 by norm_num, one_smul]

/-- C101, states: for every normalised linear functional of the operators the second moment is the quadratic matrix plus the mean
field of the Hartree-Fock solver at the density matrix `rho_cd = <c^+_d c_c>` of that functional. -/
theorem C101_moment (fs : List ι) (hnd : fs.Nodup) (x : Op ι) (hx : Canonical x)
    (hform : ∀ m ∈ x.support, m = [] ∨ (∃ i j, m = K2 fs i j) ∨ IsQuartic fs m)
    (ts : List (Mono ι × ℂ)) (hts : Enumerates ts x) (h : Fin fs.length → Fin fs.length → ℂ) (Γ : T4 fs.length)
    (hh : quadraticMatrixFromOperator fs ts = .ok h) (hΓ : getRpaTensor fs ts = .ok Γ) (φ : A →ₗ[ℂ] ℂ) (hφ : φ 1 = 1)
    (a b : Fin fs.length) :
    φ (secondMoment e (eval e x) (fs.get a) (fs.get b))
      = h a b + HartreeFock.meanField Γ (fun c d => φ (e ⟨true, fs.get d⟩ * e ⟨false, fs.get c⟩)) a b := by
  rw [C101_operators he fs hnd x hx hform ts hts h Γ hh hΓ, map_sub, map_smul, hφ, sub_eq_add_neg]
  simp only [HartreeFock.meanField, map_sum, map_smul, smul_eq_mul, mul_one, neg_mul, Finset.sum_neg_distrib]

end Verif.FitDlr
