import Verif.Gw.Tensor
import Verif.Gw.Props
import Verif.HartreeFock.Props

/-!
# C88: the interaction tensor of the GW solver
-/

set_option linter.unusedSectionVars false

noncomputable section

namespace Verif.Gw

open Verif.Operators (Mono Op Gen Canonical Enumerates CAR IsQuartic eval)
open Verif.Fourier Verif.Parallel

variable {ι : Type} [LinearOrder ι]

theorem gwTensor_ok (fs : List ι) (ts : List (Mono ι × ℂ)) (V : Operators.T4 fs.length)
    (hV : getGwTensor fs ts = .ok V) : ∃ U, Operators.quarticTensorFromOperator fs false ts = .ok U ∧
      V = fun a b c d => U a c d b + U c a b d := by
  unfold getGwTensor at hV
  cases hU : Operators.quarticTensorFromOperator fs false ts with
  | error err => rw [hU] at hV; cases hV
  | ok U =>
    rw [hU] at hV
    exact ⟨U, rfl, (Except.ok.inj hV).symm⟩

open Classical in
/-- C88 (operator): the quartic part of the operator is `1/2 ∑ V_abcd c†_a c†_c c_d c_b`, and the tensor does not change
when its two index pairs are exchanged. -/
theorem C88_operator (fs : List ι) (hnd : fs.Nodup) (x : Op ι) (hx : Canonical x)
    (ts : List (Mono ι × ℂ)) (hts : Enumerates ts x) (V : Operators.T4 fs.length)
    (hV : getGwTensor fs ts = .ok V) :
    (∀ a b c d, V c d a b = V a b c d) ∧
    ∀ {A : Type} [Ring A] [Algebra ℂ A] (e : Gen ι → A), CAR e →
      eval e (x.filter (IsQuartic fs))
        = (1 / 2 : ℂ) • ∑ a, ∑ b, ∑ c, ∑ d, V a b c d •
            (e ⟨true, fs.get a⟩ * e ⟨true, fs.get c⟩ * e ⟨false, fs.get d⟩ * e ⟨false, fs.get b⟩) := by
  obtain ⟨U, hU, rfl⟩ := gwTensor_ok fs ts V hV
  refine ⟨fun a b c d => add_comm _ _, ?_⟩
  intro A _ _ e he
  have h1 := Operators.C33_roundtrip false fs hnd x hx ts hts U hU
  rw [← h1, Operators.eval_eq, Operators.operatorFromQuarticTensor_eq]
  set F : Fin fs.length → Fin fs.length → Fin fs.length → Fin fs.length → A :=
    fun i j k l => U i j k l • (e ⟨true, fs.get i⟩ * e ⟨true, fs.get j⟩
      * e ⟨false, fs.get k⟩ * e ⟨false, fs.get l⟩) with hF
  have hL : ∀ i j k l, Operators.evalL e (U i j k l • Operators.nf (Operators.K4 fs i j k l)) = F i j k l := by
    intro i j k l
    rw [map_smul, Operators.evalL_nf he, hF]
    simp only [Operators.K4, List.map_cons, List.map_nil, List.prod_cons, List.prod_nil, mul_one, mul_assoc]
  -- both creation operators exchanged and both annihilation operators exchanged
  have hsw : ∀ a b c d : Fin fs.length, e ⟨true, fs.get a⟩ * e ⟨true, fs.get c⟩ * e ⟨false, fs.get d⟩
      * e ⟨false, fs.get b⟩ = e ⟨true, fs.get c⟩ * e ⟨true, fs.get a⟩ * e ⟨false, fs.get b⟩
      * e ⟨false, fs.get d⟩ := by
    intro a b c d
    have h1 := he ⟨true, fs.get a⟩ ⟨true, fs.get c⟩
    have h2 := he ⟨false, fs.get d⟩ ⟨false, fs.get b⟩
    simp only [Operators.contraction, ne_eq, not_true_eq_false, false_and, if_false, zero_smul] at h1 h2
    have h1' := eq_neg_of_add_eq_zero_left h1
    have h2' := eq_neg_of_add_eq_zero_left h2
    rw [h1', mul_assoc, h2', neg_mul_neg, ← mul_assoc]
  have hR : ∀ a b c d, (U a c d b + U c a b d) • (e ⟨true, fs.get a⟩ * e ⟨true, fs.get c⟩
      * e ⟨false, fs.get d⟩ * e ⟨false, fs.get b⟩) = F a c d b + F c a b d := by
    intro a b c d
    rw [add_smul, hF]
    dsimp only
    rw [← hsw a b c d]
  simp only [map_sum, hL, hR, Finset.sum_add_distrib]
  have e1 : ∑ a, ∑ b, ∑ c, ∑ d, F a c d b = ∑ i, ∑ j, ∑ k, ∑ l, F i j k l := by
    refine Finset.sum_congr rfl fun a _ => ?_
    rw [Finset.sum_comm]
    refine Finset.sum_congr rfl fun c _ => ?_
    rw [Finset.sum_comm]
  have e2 : ∑ a, ∑ b, ∑ c, ∑ d, F c a b d = ∑ i, ∑ j, ∑ k, ∑ l, F i j k l := by
    rw [Finset.sum_comm' (t' := Finset.univ) (s' := fun _ => Finset.univ) (by simp)]
    calc ∑ b, ∑ a, ∑ c, ∑ d, F c a b d = ∑ b, ∑ c, ∑ a, ∑ d, F c a b d :=
          Finset.sum_congr rfl fun b _ => Finset.sum_comm
      _ = ∑ c, ∑ b, ∑ a, ∑ d, F c a b d := Finset.sum_comm
      _ = ∑ c, ∑ a, ∑ b, ∑ d, F c a b d := Finset.sum_congr rfl fun c _ => Finset.sum_comm
  rw [e1, e2, ← two_smul ℂ, smul_smul]
  norm_num

/-- C88 (acceptance): the tensor is refused only when the operator has a term of four operators that is not of the form
`c† c† c c`. -/
theorem C88_accepts (fs : List ι) (hnd : fs.Nodup) (x : Op ι) (hx : Canonical x)
    (ts : List (Mono ι × ℂ)) (hts : Enumerates ts x) :
    (∃ V, getGwTensor fs ts = .ok V) ↔
      ∀ m ∈ x.support, m.length = 4 → m.map Gen.dag = [true, true, false, false] := by
  have hr := Operators.C33_refuses false fs hnd x hx ts hts
  unfold getGwTensor
  cases hU : Operators.quarticTensorFromOperator fs false ts with
  | error err =>
    cases err
    obtain ⟨m, hm, h4, hne⟩ := hr.mp hU
    refine ⟨fun h => ?_, fun h => absurd (h m hm h4) hne⟩
    obtain ⟨V, hV⟩ := h
    cases hV
  | ok U =>
    refine ⟨fun _ m hm h4 => ?_, fun _ => ⟨_, rfl⟩⟩
    by_contra hne
    rw [hr.mpr ⟨m, hm, h4, hne⟩] at hU
    cases hU

/-- static mean field of a density matrix `rho i j = <c†_i c_j>` in the index convention of `hartree_sigma` and
`fock_sigma` -/
def staticField {o : Type*} [Fintype o] (V : Bubble.T4 o) (rho : o → o → ℂ) : o → o → ℂ := fun a b =>
  ∑ c, ∑ d, V a b c d * rho c d - ∑ c, ∑ d, V a c d b * rho d c

/-- C88 (mean field, one site): Hartree plus Fock potential of this tensor is the mean field that the Hartree-Fock
solver computes from its own tensor for the same interaction, for every operator and density matrix. The two solvers
store transposed density matrices. -/
theorem C88_mean_field (fs : List ι) (ts : List (Mono ι × ℂ)) (V Γ : Operators.T4 fs.length)
    (hV : getGwTensor fs ts = .ok V) (hΓ : Operators.getRpaTensor fs ts = .ok Γ)
    (rho : Matrix (Fin fs.length) (Fin fs.length) ℂ) :
    staticField V rho = HartreeFock.meanField Γ rho.transpose := by
  obtain ⟨U, hU, rfl⟩ := gwTensor_ok fs ts V hV
  unfold Operators.getRpaTensor at hΓ
  rw [hU] at hΓ
  obtain rfl := Except.ok.inj hΓ
  funext a b
  unfold staticField HartreeFock.meanField
  dsimp only
  have h1 : ∑ c, ∑ d, (U a d b c + U d a c b) * rho d c
      = ∑ c, ∑ d, (U a c b d + U c a d b) * rho c d := Finset.sum_comm
  rw [h1, ← Finset.sum_sub_distrib, Finset.sum_comm (γ := Fin fs.length)
    (f := fun c d => -(4 * Operators.permSym U a d b c) * rho.transpose c d)]
  refine Finset.sum_congr rfl fun c _ => ?_
  rw [← Finset.sum_sub_distrib]
  refine Finset.sum_congr rfl fun d _ => ?_
  simp only [Operators.permSym_eq, Matrix.transpose_apply]
  ring

/-- C88 (mean field, lattice): with this tensor at every momentum, Hartree plus Fock self energy as computed by the GW
solver have the same value at every momentum: the mean field of the Hartree-Fock solver for the density matrix averaged
over the zone. -/
theorem C88_lattice {d : ℕ} {n : Fin d → ℕ} [∀ i, NeZero (n i)] {ranks : ℕ} (hr : 0 < ranks)
    {lat : List (Lat n)} (hc : Complete lat) (fs : List ι) (ts : List (Mono ι × ℂ)) (V Γ : Operators.T4 fs.length)
    (hV : getGwTensor fs ts = .ok V) (hΓ : Operators.getRpaTensor fs ts = .ok Γ)
    (rhok : Lat n → Fin fs.length → Fin fs.length → ℂ) (k : Lat n) (a b : Fin fs.length) :
    rToK (hartreeR (fun _ => V) (kToR rhok)) k a b + rToK (fockR ranks lat (kToR fun _ => V) (kToR rhok)) k a b
      = HartreeFock.meanField Γ (HartreeFock.density fun q i j => rhok q j i) a b := by
  have hav : (HartreeFock.density fun q i j => rhok q j i)
      = Matrix.transpose (Matrix.of fun i j => (Fintype.card (Lat n) : ℂ)⁻¹ * ∑ q, rhok q i j) := by
    ext i j
    simp only [HartreeFock.density, Matrix.transpose_apply, Matrix.of_apply]
    ring
  rw [hav, ← C88_mean_field fs ts V Γ hV hΓ, C64_real_space, fockR_eq hr hc]
  unfold staticField
  simp only [Matrix.of_apply]
  rw [sub_eq_add_neg]
  congr 2
  have hsh : ∀ c d, ∑ q, rhok (k - q) d c = ∑ q, rhok q d c := fun c d =>
    Equiv.sum_comp (Equiv.subLeft k) (fun x => rhok x d c)
  rw [Finset.sum_comm, Finset.mul_sum]
  refine Finset.sum_congr rfl fun c _ => ?_
  rw [Finset.sum_comm, Finset.mul_sum]
  refine Finset.sum_congr rfl fun d _ => ?_
  rw [← Finset.mul_sum, hsh]
  ring

/-- a Hubbard interaction: `n_0 n_1` as a list of terms -/
def hubbardTerms : List (Mono (Fin 2) × ℂ) := [([⟨true, 0⟩, ⟨true, 1⟩, ⟨false, 1⟩, ⟨false, 0⟩], 1)]

/-- its tensor: density-density in the two pairs of indices -/
theorem hubbard_gwTensor : ∃ V, getGwTensor [(0 : Fin 2), 1] hubbardTerms = .ok V ∧
    ∀ a b c d : Fin 2, V a b c d = if a = b ∧ c = d ∧ a ≠ c then 1 else 0 := by
  have h : Operators.quarticTensorFromOperator [(0 : Fin 2), 1] false hubbardTerms
      = .ok (Operators.set4 (fun _ _ _ _ => 0) 0 1 1 0 1) := by rfl
  refine ⟨_, by unfold getGwTensor; rw [h]; rfl, fun a b c d => ?_⟩
  simp only [Operators.set4]
  fin_cases a <;> fin_cases b <;> fin_cases c <;> fin_cases d <;> simp

/-- the hypotheses of `C88_operator`, `C88_mean_field` and `C88_lattice` hold together for this interaction -/
example : [(0 : Fin 2), 1].Nodup ∧ Canonical HartreeFock.hubbardU ∧ Enumerates hubbardTerms HartreeFock.hubbardU ∧
    (∃ V, getGwTensor [(0 : Fin 2), 1] hubbardTerms = .ok V) ∧
    ∃ Γ, Operators.getRpaTensor [(0 : Fin 2), 1] hubbardTerms = .ok Γ := by
  have hC : Canonical HartreeFock.hubbardU := by
    intro m hm
    have := Finsupp.support_single_subset hm
    rw [Finset.mem_singleton] at this
    subst this
    decide
  have hE : Enumerates hubbardTerms HartreeFock.hubbardU := by
    refine ⟨by simp [hubbardTerms], fun m a => ?_⟩
    rw [hubbardTerms, List.mem_singleton, Prod.mk.injEq, HartreeFock.hubbardU, Finsupp.single_apply]
    constructor
    · rintro ⟨rfl, rfl⟩
      exact ⟨one_ne_zero, if_pos rfl⟩
    · rintro ⟨h0, rfl⟩
      split_ifs at h0 ⊢ with hm
      · exact ⟨hm.symm, rfl⟩
      · exact absurd rfl h0
  exact ⟨by decide, hC, hE, ⟨_, hubbard_gwTensor.choose_spec.1⟩, ⟨_, by rfl⟩⟩

/-- C88 is violated in the wording of the docstring ("antisymmetrized"): for `n_0 n_1` the tensor does not change sign
when the two creation operators (first and third index) are exchanged. -/
theorem C88_doc_violated : ∃ V, getGwTensor [(0 : Fin 2), 1] hubbardTerms = .ok V ∧
    ¬ ∀ a b c d : Fin 2, V c b a d = -V a b c d := by
  obtain ⟨V, hV, h⟩ := hubbard_gwTensor
  refine ⟨V, hV, fun hx => ?_⟩
  have := hx 0 0 1 1
  rw [h, h] at this
  norm_num at this

end Verif.Gw
