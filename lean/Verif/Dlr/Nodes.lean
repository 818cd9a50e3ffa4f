import Verif.Dlr.Lemmas
import Mathlib.LinearAlgebra.Lagrange
import Mathlib.Analysis.Calculus.LocalExtr.Rolle
import Mathlib.Data.Fin.Tuple.Sort

/-!
# The kernel matrices of a DLR mesh are invertible

as soon as poles and nodes are pairwise different (and zero is among the bosonic frequencies if it is among the poles).
-/

set_option linter.unusedSectionVars false

noncomputable section

namespace Verif.Dlr

open Complex Matrix Verif.Parallel Verif.Fourier Verif.Lindhard Verif.Eliashberg Verif.Bubble

/-- sums of simple poles with as many zeros as poles vanish -/
theorem cauchy_zeros {I J : Type} [Fintype I] [Fintype J] [DecidableEq J] (hcard : Fintype.card J ≤ Fintype.card I)
    {z : I → ℂ} {w : J → ℂ} (hz : Function.Injective z) (hw : Function.Injective w) (hne : ∀ i l, z i ≠ w l)
    (c : J → ℂ) (h : ∀ i, ∑ l, c l / (z i - w l) = 0) : c = 0 := by
  classical
  set P : Polynomial ℂ := ∑ l, Polynomial.C (c l) * ∏ m ∈ Finset.univ.erase l, (Polynomial.X - Polynomial.C (w m))
    with hP
  have heval : ∀ x, P.eval x = ∑ l, c l * ∏ m ∈ Finset.univ.erase l, (x - w m) := by
    intro x
    simp [hP, Polynomial.eval_finsetSum, Polynomial.eval_prod]
  have hdeg : P.degree < Fintype.card I := by
    rcases Nat.eq_zero_or_pos (Fintype.card J) with h0 | h0
    · have : IsEmpty J := Fintype.card_eq_zero_iff.1 h0
      have : P = 0 := by simp [hP]
      rw [this, Polynomial.degree_zero]
      exact WithBot.bot_lt_coe _
    refine lt_of_le_of_lt (b := ((Fintype.card J - 1 : ℕ) : WithBot ℕ)) ?_ ?_
    · refine (Polynomial.degree_sum_le _ _).trans ?_
      refine Finset.sup_le fun l _ => ?_
      refine (Polynomial.degree_mul_le _ _).trans ?_
      refine (add_le_add_left Polynomial.degree_C_le _).trans ?_
      rw [zero_add, Polynomial.degree_prod]
      simp only [Polynomial.degree_X_sub_C, Finset.sum_const, Finset.card_erase_of_mem (Finset.mem_univ l),
        Finset.card_univ, nsmul_eq_mul, mul_one]
      exact le_refl _
    · have : Fintype.card J - 1 < Fintype.card I := by omega
      exact_mod_cast this
  have hzero : P = 0 := by
    refine Polynomial.eq_zero_of_degree_lt_of_eval_index_eq_zero (s := Finset.univ) (v := z) hz.injOn
      (by simpa using hdeg) fun i _ => ?_
    rw [heval]
    have hprod : ∏ m, (z i - w m) ≠ 0 := Finset.prod_ne_zero_iff.2 fun m _ => sub_ne_zero.2 (hne i m)
    have e : ∑ l, c l * ∏ m ∈ Finset.univ.erase l, (z i - w m) = (∏ m, (z i - w m)) * ∑ l, c l / (z i - w l) := by
      rw [Finset.mul_sum]
      refine Finset.sum_congr rfl fun l _ => ?_
      rw [← Finset.mul_prod_erase Finset.univ _ (Finset.mem_univ l)]
      have := sub_ne_zero.2 (hne i l)
      field_simp
    rw [e, h i, mul_zero]
  funext l
  have h1 := heval (w l)
  rw [hzero, Polynomial.eval_zero, Finset.sum_eq_single l] at h1
  · have h2 : ∏ m ∈ Finset.univ.erase l, (w l - w m) ≠ 0 :=
      Finset.prod_ne_zero_iff.2 fun m hm => sub_ne_zero.2 fun h => (Finset.ne_of_mem_erase hm) (hw h.symm)
    exact (mul_eq_zero.1 h1.symm).resolve_right h2
  · intro l' _ hl'
    rw [Finset.prod_eq_zero (Finset.mem_erase.2 ⟨Ne.symm hl', Finset.mem_univ l⟩) (sub_self _), mul_zero]
  · intro hl
    exact absurd (Finset.mem_univ l) hl

/-- sums of `n` exponentials with `n` real zeros vanish -/
theorem exp_zeros : ∀ (n : ℕ) (w c t : Fin n → ℝ), Function.Injective w → StrictMono t →
    (∀ j, ∑ l, c l * Real.exp (w l * t j) = 0) → c = 0
  | 0, _, _, _, _, _, _ => funext fun l => l.elim0
  | n + 1, w, c, t, hw, ht, h => by
    set g : ℝ → ℝ := fun x => ∑ l, c l * Real.exp ((w l - w 0) * x) with hg
    have hg0 : ∀ j, g (t j) = 0 := by
      intro j
      have e : g (t j) = Real.exp (-(w 0) * t j) * ∑ l, c l * Real.exp (w l * t j) := by
        rw [hg, Finset.mul_sum]
        refine Finset.sum_congr rfl fun l _ => ?_
        rw [mul_left_comm, ← Real.exp_add]
        congr 2
        ring
      rw [e, h j, mul_zero]
    have hder : ∀ x, HasDerivAt g (∑ l : Fin n, (c l.succ * (w l.succ - w 0)) * Real.exp ((w l.succ - w 0) * x)) x := by
      intro x
      have h1 : HasDerivAt g (∑ l, c l * (Real.exp ((w l - w 0) * x) * (w l - w 0))) x := by
        refine HasDerivAt.fun_sum fun l _ => ?_
        have h2 : HasDerivAt (fun y : ℝ => (w l - w 0) * y) (w l - w 0) x := by
          simpa using (hasDerivAt_id x).const_mul (w l - w 0)
        exact (h2.exp).const_mul (c l)
      rw [Fin.sum_univ_succ] at h1
      simp only [sub_self, mul_zero, zero_add] at h1
      refine h1.congr_deriv (Finset.sum_congr rfl fun l _ => by ring)
    have hroll : ∀ j : Fin n, ∃ x ∈ Set.Ioo (t j.castSucc) (t j.succ),
        (∑ l : Fin n, (c l.succ * (w l.succ - w 0)) * Real.exp ((w l.succ - w 0) * x)) = 0 := by
      intro j
      have hlt : t j.castSucc < t j.succ := ht Fin.castSucc_lt_succ
      obtain ⟨x, hx, hx0⟩ := exists_hasDerivAt_eq_zero hlt
        (fun y _ => (hder y).continuousAt.continuousWithinAt) (by rw [hg0, hg0]) (fun y _ => hder y)
      exact ⟨x, hx, hx0⟩
    choose t' ht' hz using hroll
    have hmono : StrictMono t' := by
      intro i j hij
      have h1 : i.succ ≤ j.castSucc := by
        rw [Fin.le_def]
        simpa using hij
      exact (ht' i).2.trans_le ((ht.monotone h1).trans (ht' j).1.le)
    have hw' : Function.Injective fun l : Fin n => w l.succ - w 0 := by
      intro a b hab
      have : w a.succ = w b.succ := by
        have := hab
        simp only [sub_left_inj] at this
        exact this
      exact Fin.succ_injective n (hw this)
    have ih := exp_zeros n (fun l => w l.succ - w 0) (fun l => c l.succ * (w l.succ - w 0)) t' hw' hmono hz
    have hs : ∀ l : Fin n, c l.succ = 0 := by
      intro l
      have h1 := congrFun ih l
      refine (mul_eq_zero.1 h1).resolve_right (sub_ne_zero.2 fun h2 => ?_)
      exact absurd (hw h2) (Fin.succ_ne_zero l)
    have h0 : c 0 = 0 := by
      have h1 := h 0
      rw [Fin.sum_univ_succ] at h1
      simp only [hs, zero_mul, Finset.sum_const_zero, add_zero] at h1
      exact (mul_eq_zero.1 h1).resolve_right (Real.exp_pos _).ne'
    funext l
    refine Fin.cases h0 (fun l => hs l) l

/-- the same for any index type and order -/
theorem exp_zeros' {ι : Type} [Fintype ι] {w t : ι → ℝ} (hw : Function.Injective w) (ht : Function.Injective t)
    (c : ι → ℝ) (h : ∀ j, ∑ l, c l * Real.exp (w l * t j) = 0) : c = 0 := by
  set e := Fintype.equivFin ι
  set u : Fin (Fintype.card ι) → ℝ := t ∘ e.symm
  set s := Tuple.sort u
  have hu : Function.Injective u := ht.comp e.symm.injective
  have hmono : StrictMono (u ∘ s) := (Tuple.monotone_sort u).strictMono_of_injective (hu.comp s.injective)
  have h1 := exp_zeros (Fintype.card ι) (w ∘ e.symm) (c ∘ e.symm) (u ∘ s) (hw.comp e.symm.injective) hmono (by
    intro j
    have h2 := h (e.symm (s j))
    rw [← Equiv.sum_comp e.symm] at h2
    exact h2)
  funext l
  have := congrFun h1 (e l)
  simpa using this

variable {ι : Type} [Fintype ι] [DecidableEq ι]

/-- poles and nodes are pairwise different, and the pole at zero, if any, comes with the bosonic frequency zero -/
structure Mesh.Proper (M : Mesh ι) : Prop where
  beta_pos : 0 < M.beta
  omega : Function.Injective M.omega
  tau : Function.Injective M.tau
  nu : ∀ s, Function.Injective (M.nu s)
  zero : (∃ l, M.omega l = 0) → ∃ j, M.nu .boson j = 0

theorem isUnit_det_of_zero {A : Matrix ι ι ℂ} (h : ∀ c : ι → ℂ, A *ᵥ c = 0 → c = 0) : IsUnit A.det := by
  rw [← Matrix.isUnit_iff_isUnit_det, ← Matrix.mulVec_injective_iff_isUnit]
  intro x y hxy
  have := h (x - y) (by rw [Matrix.mulVec_sub]; exact sub_eq_zero.2 hxy)
  exact sub_eq_zero.1 this

theorem kTau_isUnit {M : Mesh ι} (hM : M.Proper) : IsUnit M.kTau.det := by
  refine isUnit_det_of_zero fun c hc => ?_
  have hrow : ∀ j, ∑ l, (weight M.beta (M.omega l) : ℂ) * c l * (Real.exp (-M.omega l * M.tau j) : ℝ) = 0 := by
    intro j
    have h1 := congrFun hc j
    rw [kTau_mulVec, Mesh.evalTau] at h1
    have h2 : ∑ l, c l * freeTau M.beta (M.tau j) (M.omega l)
        = -∑ l, (weight M.beta (M.omega l) : ℂ) * c l * (Real.exp (-M.omega l * M.tau j) : ℝ) := by
      rw [← Finset.sum_neg_distrib]
      refine Finset.sum_congr rfl fun l _ => ?_
      rw [freeTau_eq]
      push_cast
      ring
    rw [h2, Pi.zero_apply, neg_eq_zero] at h1
    exact h1
  have hw' : Function.Injective fun l => -M.omega l := fun a b h => hM.omega (neg_injective h)
  have hpart : ∀ p : ℂ → ℝ, (∀ z : ℂ, ∀ r : ℝ, p ((r : ℂ) * z) = r * p z) → (∀ s : ι → ℂ, p (∑ l, s l) = ∑ l, p (s l)) →
      p 0 = 0 → ∀ l, p (c l) = 0 := by
    intro p hp hsum h0 l
    have h1 := exp_zeros' hw' hM.tau (fun l => weight M.beta (M.omega l) * p (c l)) (by
      intro j
      have h2 := congrArg p (hrow j)
      rw [h0, hsum] at h2
      rw [← h2]
      refine Finset.sum_congr rfl fun l _ => ?_
      rw [mul_comm _ ((Real.exp (-M.omega l * M.tau j) : ℝ) : ℂ), hp, hp]
      ring)
    exact (mul_eq_zero.1 (congrFun h1 l)).resolve_left (weight_pos _ _).ne'
  funext l
  apply Complex.ext
  · exact hpart Complex.re (fun z r => by simp) (fun s => by simp) rfl l
  · exact hpart Complex.im (fun z r => by simp) (fun s => by simp) rfl l

theorem matsubara_injective (s : Stat) (beta : ℝ) (hb : 0 < beta) : Function.Injective (matsubara s beta) := by
  intro a b h
  have hb' : (beta : ℂ) ≠ 0 := by exact_mod_cast hb.ne'
  have hpi : (Real.pi : ℂ) ≠ 0 := by exact_mod_cast Real.pi_ne_zero
  have key : (a : ℂ) = b := by
    cases s with
    | fermion =>
      simp only [matsubara] at h
      have h1 := mul_left_cancel₀ I_ne_zero h
      field_simp at h1
      linear_combination h1 / 2
    | boson =>
      simp only [matsubara] at h
      have h1 := mul_left_cancel₀ I_ne_zero h
      field_simp at h1
      linear_combination h1
  exact_mod_cast key

theorem kFreq_fermion_isUnit {M : Mesh ι} (hM : M.Proper) : IsUnit (M.kFreq .fermion).det := by
  refine isUnit_det_of_zero fun c hc => ?_
  refine cauchy_zeros (z := fun j => matsubara .fermion M.beta (M.nu .fermion j)) (w := fun l => (M.omega l : ℂ))
    le_rfl ((matsubara_injective _ _ hM.beta_pos).comp (hM.nu _)) (ofReal_injective.comp hM.omega)
    (fun j l => sub_ne_zero.1 (fermion_ne M.beta hM.beta_pos _ _)) c fun j => ?_
  have h1 := congrFun hc j
  rw [kFreq_mulVec, Mesh.evalFreq] at h1
  rw [← Pi.zero_apply (M := fun _ : ι => ℂ) j, ← h1]
  refine Finset.sum_congr rfl fun l _ => ?_
  simp only [kernelFreq]
  rw [mul_one_div]

theorem odd_weight_ne {beta x : ℝ} (hb : 0 < beta) (hx : x ≠ 0) : (1 - 2 * fermi (x * beta) : ℝ) ≠ 0 := by
  rw [C20_fermi]
  intro h
  have hp := Real.exp_pos (x * beta)
  have : Real.exp (x * beta) = 1 := by
    field_simp at h
    linarith
  rw [Real.exp_eq_one_iff] at this
  rcases mul_eq_zero.1 this with h1 | h1
  · exact hx h1
  · exact hb.ne' h1

theorem odd_weight_zero (beta : ℝ) : (1 - 2 * fermi (0 * beta) : ℝ) = 0 := by
  rw [C20_fermi]
  simp
  norm_num

theorem kFreq_boson_isUnit {M : Mesh ι} (hM : M.Proper) : IsUnit (M.kFreq .boson).det := by
  refine isUnit_det_of_zero fun c hc => ?_
  have hrow : ∀ j, ∑ l, c l * kernelFreq .boson M.beta (M.omega l) (M.nu .boson j) = 0 := by
    intro j
    have h1 := congrFun hc j
    rwa [kFreq_mulVec, Mesh.evalFreq] at h1
  by_cases hz : ∃ l, M.omega l = 0
  · obtain ⟨l0, hl0⟩ := hz
    obtain ⟨j0, hj0⟩ := hM.zero ⟨l0, hl0⟩
    have hne : ∀ l, l ≠ l0 → M.omega l ≠ 0 := fun l hl h => hl (hM.omega (h.trans hl0.symm))
    have hnu : ∀ j, j ≠ j0 → M.nu .boson j ≠ 0 := fun j hj h => hj (hM.nu .boson (h.trans hj0.symm))
    have h1 := cauchy_zeros (I := {j // j ≠ j0}) (J := {l // l ≠ l0})
      (z := fun j => matsubara .boson M.beta (M.nu .boson j)) (w := fun l => (M.omega l : ℂ))
      (by rw [Fintype.card_subtype_compl, Fintype.card_subtype_compl]; simp)
      (((matsubara_injective .boson _ hM.beta_pos).comp (hM.nu .boson)).comp Subtype.val_injective)
      ((ofReal_injective.comp hM.omega).comp Subtype.val_injective)
      (fun j l => sub_ne_zero.1 (boson_ne M.beta hM.beta_pos _ _ fun h => hne l l.2 h.2))
      (fun l => c l * (1 - 2 * fermi (M.omega l * M.beta) : ℝ)) (by
        intro j
        have h2 := hrow j
        rw [← Finset.sum_erase_add Finset.univ _ (Finset.mem_univ l0)] at h2
        have h3 : kernelFreq .boson M.beta (M.omega l0) (M.nu .boson j) = 0 := by
          simp only [kernelFreq]
          rw [if_neg (fun h => hnu j j.2 h.1), hl0, odd_weight_zero, ofReal_zero, zero_div]
        rw [h3, mul_zero, add_zero] at h2
        rw [← h2]
        have h4 : ∑ l : {l // l ≠ l0}, c l * ((1 - 2 * fermi (M.omega l * M.beta) : ℝ) : ℂ)
              / (matsubara .boson M.beta (M.nu .boson j) - M.omega l)
            = ∑ l : {l // l ≠ l0}, c l * kernelFreq .boson M.beta (M.omega l) (M.nu .boson j) := by
          refine Finset.sum_congr rfl fun l _ => ?_
          simp only [kernelFreq]
          rw [if_neg (fun h => hne l l.2 h.2), mul_div_assoc]
        rw [h4]
        exact (Finset.sum_subtype (Finset.univ.erase l0) (by simp)
          (fun l => c l * kernelFreq .boson M.beta (M.omega l) (M.nu .boson j))).symm)
    have h2 : ∀ l, l ≠ l0 → c l = 0 := by
      intro l hl
      have h3 := congrFun h1 ⟨l, hl⟩
      refine (mul_eq_zero.1 h3).resolve_right ?_
      exact_mod_cast odd_weight_ne hM.beta_pos (hne l hl)
    have h3 : c l0 = 0 := by
      have h4 := hrow j0
      rw [Finset.sum_eq_single l0 (fun l _ hl => by rw [h2 l hl, zero_mul]) (fun h => absurd (Finset.mem_univ _) h)] at h4
      refine (mul_eq_zero.1 h4).resolve_right ?_
      simp only [kernelFreq]
      rw [if_pos ⟨hj0, hl0⟩, neg_eq_zero]
      have := hM.beta_pos
      exact_mod_cast (by positivity : (M.beta / 2 : ℝ) ≠ 0)
    funext l
    by_cases hl : l = l0
    · rw [hl]; exact h3
    · exact h2 l hl
  · push Not at hz
    have h1 := cauchy_zeros (z := fun j => matsubara .boson M.beta (M.nu .boson j)) (w := fun l => (M.omega l : ℂ))
      le_rfl ((matsubara_injective _ _ hM.beta_pos).comp (hM.nu _)) (ofReal_injective.comp hM.omega)
      (fun j l => sub_ne_zero.1 (boson_ne M.beta hM.beta_pos _ _ fun h => hz l h.2))
      (fun l => c l * (1 - 2 * fermi (M.omega l * M.beta) : ℝ)) (by
        intro j
        rw [← hrow j]
        refine Finset.sum_congr rfl fun l _ => ?_
        simp only [kernelFreq]
        rw [if_neg (fun h => hz l h.2), mul_div_assoc])
    funext l
    refine (mul_eq_zero.1 (congrFun h1 l)).resolve_right ?_
    exact_mod_cast odd_weight_ne hM.beta_pos (hz l)

theorem kFreq_isUnit {M : Mesh ι} (hM : M.Proper) (s : Stat) : IsUnit (M.kFreq s).det := by
  cases s with
  | fermion => exact kFreq_fermion_isUnit hM
  | boson => exact kFreq_boson_isUnit hM

end Verif.Dlr
