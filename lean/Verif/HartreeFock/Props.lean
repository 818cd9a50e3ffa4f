import Verif.HartreeFock.Model
import Verif.FitDlr.Lemmas
import Verif.Operators.Props
import Verif.Lindhard.Lemmas
import Mathlib.Analysis.SpecialFunctions.Log.Deriv
import Mathlib.Analysis.Calculus.Deriv.Mul
import Mathlib.Tactic.FieldSimp
import Mathlib.Tactic.LinearCombination

/-!
# Properties of the Hartree-Fock solver (C46, C47, C48, C49, C75)
-/

set_option linter.unusedSectionVars false

noncomputable section

namespace Verif.HartreeFock

open Verif.Symmetries (triu mem_triu)
open Verif.FitDlr (triu_nodup idxOf_getD getD_idxOf getD_mem)
open Matrix

/-! ## C46: vectorisation -/

/-- hermitian inside the shape -/
def Herm (norb : ℕ) (m : Mat) : Prop :=
  ∀ a b, a < norb → b < norb → m b a = (starRingEnd ℂ) (m a b)

theorem vec2mat_ok {norb : ℕ} {v : RVec} (hv : v.len = norb + (triu norb).length + (triu norb).length) :
    ∃ m, vec2mat norb v = .ok m ∧ (∀ a, m a a = v.get a) ∧
      (∀ a b, (a, b) ∈ triu norb →
        m a b = v.get (norb + (triu norb).idxOf (a, b)) +
          Complex.I * v.get (norb + (triu norb).length + (triu norb).idxOf (a, b)) ∧
        m b a = (starRingEnd ℂ) (m a b)) := by
  have h1 : ¬ v.len < norb := by omega
  have h2 : (v.len - norb) % 2 = 0 := by omega
  have h3 : (v.len - norb) / 2 = (triu norb).length := by omega
  unfold vec2mat
  simp only [if_neg h1, h2, h3, ne_eq, not_true_eq_false, if_false]
  refine ⟨_, rfl, ?_, ?_⟩
  · intro a
    have : (a, a) ∉ triu norb := fun h => by have := (mem_triu _ _).1 h; simp at this
    simp [this]
  · intro a b hab
    have h := (mem_triu _ _).1 hab
    simp only at h
    have hn : (b, a) ∉ triu norb := fun h' => by
      have := (mem_triu _ _).1 h'; simp only at this; omega
    have e1 : a ≠ b := by omega
    have e2 : b ≠ a := by omega
    simp only [if_pos hab, if_neg hn, if_neg e1, if_neg e2, map_zero, add_zero, zero_add, and_self]

/-- C46: a hermitian matrix is recovered from its vector. -/
theorem C46_mat (norb : ℕ) (rho : Mat) (h : Herm norb rho) :
    ∃ m, vec2mat norb (mat2vec norb rho) = .ok m ∧ ∀ a b, a < norb → b < norb → m a b = rho a b := by
  obtain ⟨m, hm, h1, h2⟩ := vec2mat_ok (norb := norb) (v := mat2vec norb rho) rfl
  refine ⟨m, hm, ?_⟩
  have key : ∀ a b, a < norb → b < norb → a < b → m a b = rho a b ∧ m b a = rho b a := by
    intro a b ha hb hab
    have hmem : (a, b) ∈ triu norb := (mem_triu _ _).2 ⟨ha, hb, hab⟩
    obtain ⟨e1, e2⟩ := h2 a b hmem
    have hi := List.idxOf_lt_length_of_mem hmem
    have e3 : m a b = rho a b := by
      rw [e1]
      simp only [mat2vec]
      rw [if_neg (by omega), if_pos (by omega), if_neg (by omega), if_neg (by omega),
        show norb + (triu norb).idxOf (a, b) - norb = (triu norb).idxOf (a, b) by omega,
        show norb + (triu norb).length + (triu norb).idxOf (a, b) - norb - (triu norb).length
          = (triu norb).idxOf (a, b) by omega, getD_idxOf hmem]
      rw [mul_comm]
      exact Complex.re_add_im _
    refine ⟨e3, ?_⟩
    rw [e2, e3, h a b ha hb]
  intro a b ha hb
  rcases lt_trichotomy a b with hlt | heq | hgt
  · exact (key a b ha hb hlt).1
  · subst heq
    rw [h1 a]
    simp only [mat2vec, if_pos ha]
    exact Complex.conj_eq_iff_re.1 (h a a ha ha).symm
  · exact (key b a hb ha hgt).2

/-- C46: every vector of the right length gives a hermitian matrix and is recovered from it. -/
theorem C46_vec (norb : ℕ) (v : RVec)
    (hv : v.len = norb + (norb * (norb - 1) / 2) + (norb * (norb - 1) / 2)) :
    ∃ m, vec2mat norb v = .ok m ∧ Herm norb m ∧ (mat2vec norb m).len = v.len ∧
      ∀ t < v.len, (mat2vec norb m).get t = v.get t := by
  rw [← FitDlr.length_triu] at hv
  obtain ⟨m, hm, h1, h2⟩ := vec2mat_ok hv
  refine ⟨m, hm, ?_, ?_, ?_⟩
  · intro a b ha hb
    rcases lt_trichotomy a b with hlt | heq | hgt
    · exact (h2 a b ((mem_triu _ _).2 ⟨ha, hb, hlt⟩)).2
    · subst heq
      rw [h1 a, Complex.conj_ofReal]
    · rw [(h2 b a ((mem_triu _ _).2 ⟨hb, ha, hgt⟩)).2, Complex.conj_conj]
  · rw [hv]; rfl
  · intro t ht
    have h2' : ∀ u : ℕ × ℕ, u ∈ triu norb →
        m u.1 u.2 = v.get (norb + (triu norb).idxOf u) +
          Complex.I * v.get (norb + (triu norb).length + (triu norb).idxOf u) :=
      fun ⟨a, b⟩ h => (h2 a b h).1
    simp only [mat2vec]
    by_cases ha : t < norb
    · rw [if_pos ha, h1 t, Complex.ofReal_re]
    · rw [if_neg ha]
      by_cases hb : t < norb + (triu norb).length
      · rw [if_pos hb]
        have hlt : t - norb < (triu norb).length := by omega
        have hmem := getD_mem (l := triu norb) hlt (0, 0)
        have e := h2' _ hmem
        rw [e, idxOf_getD (triu_nodup _) hlt]
        simp
        congr 1
        omega
      · rw [if_neg hb]
        have hlt : t - norb - (triu norb).length < (triu norb).length := by omega
        have hmem := getD_mem (l := triu norb) hlt (0, 0)
        have e := h2' _ hmem
        rw [e, idxOf_getD (triu_nodup _) hlt]
        simp
        congr 1
        omega

/-- C46: a vector of any other length is refused. -/
theorem C46_refuses (norb : ℕ) (v : RVec)
    (hv : v.len ≠ norb + (norb * (norb - 1) / 2) + (norb * (norb - 1) / 2)) :
    ∃ e, vec2mat norb v = .error e := by
  rw [← FitDlr.length_triu] at hv
  unfold vec2mat
  simp only
  split_ifs with h1 h2 h3
  · exact ⟨_, rfl⟩
  · exact ⟨_, rfl⟩
  · exact ⟨_, rfl⟩
  · omega

/-- C46 (Hartree variant): real diagonal matrices and vectors correspond to each other. -/
theorem C46_hartree (norb : ℕ) :
    (∀ rho : Mat, (∀ a b, a < norb → b < norb → a ≠ b → rho a b = 0) →
      (∀ a, a < norb → (rho a a).im = 0) →
      ∀ a b, a < norb → b < norb → hartreeVec2mat (hartreeMat2vec norb rho) a b = rho a b) ∧
    ∀ v : RVec, v.len = norb → (hartreeMat2vec norb (hartreeVec2mat v)).len = v.len ∧
      ∀ m < v.len, (hartreeMat2vec norb (hartreeVec2mat v)).get m = v.get m := by
  refine ⟨?_, ?_⟩
  · intro rho h0 him a b ha hb
    simp only [hartreeVec2mat, hartreeMat2vec]
    by_cases hab : a = b
    · subst hab
      rw [if_pos rfl]
      apply Complex.ext
      · simp
      · simp [him a ha]
    · rw [if_neg hab, h0 a b ha hb hab]
  · intro v hv
    refine ⟨hv.symm, fun m _ => ?_⟩
    simp [hartreeMat2vec, hartreeVec2mat]

/-- a three orbital vector of the right length -/
example : ∃ m, vec2mat 3 ⟨9, fun t => t⟩ = .ok m ∧ Herm 3 m := by
  obtain ⟨m, h1, h2, -⟩ := C46_vec 3 ⟨9, fun t => t⟩ rfl
  exact ⟨m, h1, h2⟩

/-! ## C47: mean field -/

variable {n : ℕ}

open Verif.Operators in
theorem daggerMono_pairwise {ι : Type} [LinearOrder ι] (m : Mono ι) (hm : m.Pairwise (· < ·)) :
    (daggerMono m).Pairwise (· < ·) := by
  unfold daggerMono
  rw [List.pairwise_map, List.pairwise_reverse]
  refine hm.imp ?_
  intro g h hgh
  change Gen.key (⟨!h.dag, h.idx⟩ : Gen ι) < Gen.key (⟨!g.dag, g.idx⟩ : Gen ι)
  have hgh' : Gen.key g < Gen.key h := hgh
  obtain ⟨d, i⟩ := g
  obtain ⟨d', i'⟩ := h
  cases d <;> cases d' <;> simp_all [Gen.key]

open Verif.Operators in
/-- coefficient of the adjoint of a normal ordered operator -/
theorem dagger_apply {ι : Type} [LinearOrder ι] (x : Op ι) (hx : Canonical x) (m : Mono ι) :
    dagger x (daggerMono m) = (starRingEnd ℂ) (x m) := by
  classical
  unfold dagger
  rw [Finsupp.sum_apply, Finsupp.sum, Finset.sum_eq_single m]
  · by_cases hm : m ∈ x.support
    · rw [nf_sorted _ (daggerMono_pairwise m (hx m hm))]
      simp
    · rw [Finsupp.notMem_support_iff.1 hm]
      simp
  · intro m' hm' hne
    rw [nf_sorted _ (daggerMono_pairwise m' (hx m' hm'))]
    have : daggerMono m' ≠ daggerMono m := by
      intro h
      apply hne
      rw [← daggerMono_daggerMono m', h, daggerMono_daggerMono]
    simp [this]
  · intro hm
    rw [Finsupp.notMem_support_iff.1 hm]
    simp

open Verif.Operators in
/-- the interaction tensor of a self adjoint operator -/
theorem rpaTensor_conj {ι : Type} [LinearOrder ι] (fs : List ι) (hnd : fs.Nodup) (x : Op ι)
    (hx : Canonical x) (hself : dagger x = x) (ts : List (Mono ι × ℂ)) (hts : Enumerates ts x)
    (U : T4 fs.length) (hU : getRpaTensor fs ts = .ok U) (a b c d : Fin fs.length) :
    (starRingEnd ℂ) (U a b c d) = U b a d c := by
  unfold getRpaTensor at hU
  cases hq : quarticTensorFromOperator fs false ts with
  | error err => rw [hq] at hU; cases hU
  | ok W =>
    rw [hq] at hU
    obtain rfl := Except.ok.inj hU
    have hW := quarticTensor_of_ok false fs hnd x hx ts hts W hq
    have hc : ∀ i j k l, (starRingEnd ℂ) (W i j k l) = W l k j i := by
      intro i j k l
      rw [hW]
      change (starRingEnd ℂ) (x (K4 fs i j k l)) = x (K4 fs l k j i)
      rw [← dagger_apply x hx, hself]
      rfl
    simp only [permSym_eq, map_mul, map_add, map_sub, map_div₀, map_one, Complex.conj_ofNat, hc]
    ring

open Verif.Operators in
/-- C47 (hermitian): for a self adjoint interaction the mean field of a hermitian density matrix is
hermitian. -/
theorem C47_hermitian {ι : Type} [LinearOrder ι] (fs : List ι) (hnd : fs.Nodup) (x : Op ι)
    (hx : Canonical x) (hself : dagger x = x) (ts : List (Mono ι × ℂ)) (hts : Enumerates ts x)
    (U : T4 fs.length) (hU : getRpaTensor fs ts = .ok U)
    (rho : Matrix (Fin fs.length) (Fin fs.length) ℂ) (hr : rho.IsHermitian) :
    (meanField U rho).IsHermitian := by
  ext a b
  rw [conjTranspose_apply]
  simp only [meanField, star_sum, star_mul', star_neg]
  rw [Finset.sum_comm]
  refine Finset.sum_congr rfl fun c _ => Finset.sum_congr rfl fun d _ => ?_
  have h1 := rpaTensor_conj fs hnd x hx hself ts hts U hU a b d c
  have h2 : star (rho d c) = rho c d := hr.apply c d
  rw [h2, show star (U a b d c) = U b a c d from h1]

/-- C47 (linear) -/
theorem C47_linear (U : Operators.T4 n) (s t : ℂ) (rho rho' : Matrix (Fin n) (Fin n) ℂ) :
    meanField U (s • rho + t • rho') = s • meanField U rho + t • meanField U rho' := by
  ext a b
  simp only [meanField, Matrix.add_apply, Matrix.smul_apply, smul_eq_mul, Finset.mul_sum,
    ← Finset.sum_add_distrib]
  refine Finset.sum_congr rfl fun c _ => Finset.sum_congr rfl fun d _ => ?_
  ring

/-- C47 (energy): the returned interaction energy is `-1/2 tr(M rho)`. -/
theorem C47_energy (U : Operators.T4 n) (rho : Matrix (Fin n) (Fin n) ℂ) :
    eInt U rho = -(1 / 2) * Matrix.trace (meanField U rho * rho) := by
  have h : Matrix.trace (meanField U rho * rho)
      = ∑ a, ∑ b, ∑ c, ∑ d, -(rho a b * U a b c d * rho c d) := by
    rw [Matrix.trace, Finset.sum_congr rfl fun b _ => by
      rw [Matrix.diag_apply, Matrix.mul_apply]]
    rw [Finset.sum_comm]
    refine Finset.sum_congr rfl fun a _ => Finset.sum_congr rfl fun b _ => ?_
    simp only [meanField, Finset.sum_mul]
    refine Finset.sum_congr rfl fun c _ => Finset.sum_congr rfl fun d _ => ?_
    ring
  rw [h, eInt]
  simp only [Finset.sum_neg_distrib]
  ring

open Verif.Operators in
/-- C47 (derivative): minus the mean field is the derivative of the returned interaction energy:
the energy is quadratic with linear term `-tr(M δ)`. -/
theorem C47_derivative {ι : Type} [LinearOrder ι] (fs : List ι) (hnd : fs.Nodup) (x : Op ι)
    (hx : Canonical x) (ts : List (Mono ι × ℂ)) (hts : Enumerates ts x) (U : T4 fs.length)
    (hU : getRpaTensor fs ts = .ok U) (rho δ : Matrix (Fin fs.length) (Fin fs.length) ℂ) :
    eInt U (rho + δ) = eInt U rho - Matrix.trace (meanField U rho * δ) + eInt U δ := by
  obtain ⟨c1, c2, -⟩ := C37_rpa_tensor fs hnd x hx ts hts U hU
  have hsym : ∀ a b c d, U c d a b = U a b c d := by
    intro a b c d
    rw [c1 a d c b, c2 a b c d, neg_neg]
  have h : Matrix.trace (meanField U rho * δ)
      = ∑ a, ∑ b, ∑ c, ∑ d, -(δ a b * U a b c d * rho c d) := by
    rw [Matrix.trace, Finset.sum_congr rfl fun b _ => by
      rw [Matrix.diag_apply, Matrix.mul_apply]]
    rw [Finset.sum_comm]
    refine Finset.sum_congr rfl fun a _ => Finset.sum_congr rfl fun b _ => ?_
    simp only [meanField, Finset.sum_mul]
    refine Finset.sum_congr rfl fun c _ => Finset.sum_congr rfl fun d _ => ?_
    ring
  have hswap : ∑ a, ∑ b, ∑ c, ∑ d, rho a b * U a b c d * δ c d
      = ∑ a, ∑ b, ∑ c, ∑ d, δ a b * U a b c d * rho c d := by
    have : ∀ f : Fin fs.length → Fin fs.length → Fin fs.length → Fin fs.length → ℂ,
        ∑ a, ∑ b, ∑ c, ∑ d, f a b c d = ∑ a, ∑ b, ∑ c, ∑ d, f c d a b := by
      intro f
      have hp : ∀ f : Fin fs.length → Fin fs.length → Fin fs.length → Fin fs.length → ℂ,
          ∑ a, ∑ b, ∑ c, ∑ d, f a b c d
            = ∑ p : Fin fs.length × Fin fs.length, ∑ q : Fin fs.length × Fin fs.length,
              f p.1 p.2 q.1 q.2 := by
        intro f
        simp only [Fintype.sum_prod_type]
      rw [hp f, hp fun a b c d => f c d a b, Finset.sum_comm]
    rw [this]
    refine Finset.sum_congr rfl fun a _ => Finset.sum_congr rfl fun b _ =>
      Finset.sum_congr rfl fun c _ => Finset.sum_congr rfl fun d _ => ?_
    rw [hsym a b c d]; ring
  rw [h]
  simp only [eInt, Matrix.add_apply, Finset.sum_neg_distrib]
  have hexp : ∑ a, ∑ b, ∑ c, ∑ d, (rho a b + δ a b) * U a b c d * (rho c d + δ c d)
      = ∑ a, ∑ b, ∑ c, ∑ d, rho a b * U a b c d * rho c d
        + ∑ a, ∑ b, ∑ c, ∑ d, rho a b * U a b c d * δ c d
        + ∑ a, ∑ b, ∑ c, ∑ d, δ a b * U a b c d * rho c d
        + ∑ a, ∑ b, ∑ c, ∑ d, δ a b * U a b c d * δ c d := by
    simp only [← Finset.sum_add_distrib]
    refine Finset.sum_congr rfl fun a _ => Finset.sum_congr rfl fun b _ =>
      Finset.sum_congr rfl fun c _ => Finset.sum_congr rfl fun d _ => ?_
    ring
  rw [hexp, hswap]
  ring

/-! ## C48: energies -/

open Verif.Operators in
/-- `φ` is the expectation value in a state for which Wick's theorem holds, with one-particle
density matrix `rho a b = <c^+_b c_a>` (the convention of the solver). -/
structure WickState {ι : Type} {A : Type} [Ring A] [Algebra ℂ A] (fs : List ι) (e : Gen ι → A)
    (φ : A →ₗ[ℂ] ℂ) (rho : Matrix (Fin fs.length) (Fin fs.length) ℂ) : Prop where
  one : φ 1 = 1
  pair : ∀ a b, φ (e ⟨true, fs.get b⟩ * e ⟨false, fs.get a⟩) = rho a b
  wick : ∀ a b c d, φ (e ⟨true, fs.get a⟩ * e ⟨true, fs.get b⟩ * e ⟨false, fs.get c⟩ *
      e ⟨false, fs.get d⟩)
    = φ (e ⟨true, fs.get a⟩ * e ⟨false, fs.get d⟩) * φ (e ⟨true, fs.get b⟩ * e ⟨false, fs.get c⟩)
      - φ (e ⟨true, fs.get a⟩ * e ⟨false, fs.get c⟩) * φ (e ⟨true, fs.get b⟩ * e ⟨false, fs.get d⟩)

open Verif.Operators Classical in
/-- C48 (sign): the returned interaction energy is minus the expectation value of the interaction,
for every interaction and density matrix. -/
theorem C48_interaction {ι : Type} [LinearOrder ι] {A : Type} [Ring A] [Algebra ℂ A] (fs : List ι)
    (hnd : fs.Nodup) (x : Op ι) (hx : Canonical x) (ts : List (Mono ι × ℂ)) (hts : Enumerates ts x)
    (U : T4 fs.length) (hU : getRpaTensor fs ts = .ok U) (e : Gen ι → A) (he : CAR e)
    (φ : A →ₗ[ℂ] ℂ) (rho : Matrix (Fin fs.length) (Fin fs.length) ℂ) (hφ : WickState fs e φ rho) :
    φ (eval e (x.filter (IsQuartic fs))) = -eInt U rho := by
  obtain ⟨c1, c2, hev⟩ := C37_rpa_tensor fs hnd x hx ts hts U hU
  rw [hev e he, map_smul]
  simp only [map_sum, map_smul, smul_eq_mul]
  have h1 : ∀ a b c d, φ (e ⟨true, fs.get b⟩ * e ⟨true, fs.get d⟩ * e ⟨false, fs.get a⟩ *
      e ⟨false, fs.get c⟩) = rho c b * rho a d - rho a b * rho c d := by
    intro a b c d
    rw [hφ.wick, hφ.pair, hφ.pair, hφ.pair, hφ.pair]
  simp only [h1]
  have h2 : ∑ a, ∑ b, ∑ c, ∑ d, U a b c d * (rho c b * rho a d)
      = -∑ a, ∑ b, ∑ c, ∑ d, rho a b * U a b c d * rho c d := by
    rw [Finset.sum_comm]
    simp only [← Finset.sum_neg_distrib]
    rw [Finset.sum_comm (f := fun a b => ∑ c, ∑ d, -(rho a b * U a b c d * rho c d))]
    refine Finset.sum_congr rfl fun b _ => ?_
    rw [Finset.sum_comm]
    refine Finset.sum_congr rfl fun a _ => Finset.sum_congr rfl fun c _ =>
      Finset.sum_congr rfl fun d _ => ?_
    rw [c1 a b c d]
    ring
  have h3 : ∑ a, ∑ b, ∑ c, ∑ d, U a b c d * (rho c b * rho a d - rho a b * rho c d)
      = ∑ a, ∑ b, ∑ c, ∑ d, U a b c d * (rho c b * rho a d)
        - ∑ a, ∑ b, ∑ c, ∑ d, rho a b * U a b c d * rho c d := by
    simp only [← Finset.sum_sub_distrib]
    refine Finset.sum_congr rfl fun a _ => Finset.sum_congr rfl fun b _ =>
      Finset.sum_congr rfl fun c _ => Finset.sum_congr rfl fun d _ => ?_
    ring
  rw [h3, h2, eInt]
  ring

open Verif.Operators Classical in
/-- C48, partial: `E_tot` is the expectation value of the kinetic energy minus that of the
interaction; the claim would hold with the opposite sign of the interaction energy. -/
theorem C48_partial {κ : Type} [Fintype κ] {ι : Type} [LinearOrder ι] {A : Type} [Ring A]
    [Algebra ℂ A] (fs : List ι) (hnd : fs.Nodup) (x : Op ι) (hx : Canonical x)
    (ts : List (Mono ι × ℂ)) (hts : Enumerates ts x) (U : T4 fs.length)
    (hU : getRpaTensor fs ts = .ok U) (e : Gen ι → A) (he : CAR e) (φ : A →ₗ[ℂ] ℂ)
    (ek rhok : κ → Matrix (Fin fs.length) (Fin fs.length) ℂ)
    (hφ : WickState fs e φ (density rhok)) :
    eTot U ek rhok = (∑ k, Matrix.trace (ek k * rhok k)) / (Fintype.card κ : ℂ)
      - φ (eval e (x.filter (IsQuartic fs))) := by
  rw [C48_interaction fs hnd x hx ts hts U hU e he φ _ hφ, eTot, eKin]
  have : ∀ k, ∑ a, ∑ b, ek k a b * rhok k b a = Matrix.trace (ek k * rhok k) := by
    intro k
    rw [Matrix.trace]
    refine Finset.sum_congr rfl fun a _ => ?_
    rw [Matrix.diag_apply, Matrix.mul_apply]
  simp only [this]
  ring

open Verif.Operators Classical in
/-- C48 (grand potential): the returned `Omega` is the variational grand potential
`Omega_0 + <H_int> - tr(M rho)`. -/
theorem C48_omega {κ : Type} [Fintype κ] {ι : Type} [LinearOrder ι] {A : Type} [Ring A]
    [Algebra ℂ A] (fs : List ι) (hnd : fs.Nodup) (x : Op ι) (hx : Canonical x)
    (ts : List (Mono ι × ℂ)) (hts : Enumerates ts x) (U : T4 fs.length)
    (hU : getRpaTensor fs ts = .ok U) (e : Gen ι → A) (he : CAR e) (φ : A →ₗ[ℂ] ℂ)
    (rhok : κ → Matrix (Fin fs.length) (Fin fs.length) ℂ) (beta mu : ℝ)
    (ev : κ → Fin fs.length → ℝ) (hφ : WickState fs e φ (density rhok)) :
    omega U beta mu ev rhok = (omega0 beta mu ev : ℂ) + φ (eval e (x.filter (IsQuartic fs)))
      - Matrix.trace (meanField U (density rhok) * density rhok) := by
  have h := C47_energy U (density rhok)
  rw [C48_interaction fs hnd x hx ts hts U hU e he φ _ hφ, omega]
  linear_combination 2 * h

/-! ### A two mode example -/

/-- annihilators of two modes in the basis `|00>, |10>, |01>, |11>` -/
def ann : Fin 2 → Matrix (Fin 4) (Fin 4) ℤ
  | 0 => !![0, 1, 0, 0; 0, 0, 0, 0; 0, 0, 0, 1; 0, 0, 0, 0]
  | 1 => !![0, 0, 1, 0; 0, 0, 0, -1; 0, 0, 0, 0; 0, 0, 0, 0]

/-- elementary operators -/
def fockZ (d : Bool) (i : Fin 2) : Matrix (Fin 4) (Fin 4) ℤ := if d then (ann i)ᵀ else ann i

theorem fockZ_car : ∀ d d' : Bool, ∀ i j : Fin 2, fockZ d i * fockZ d' j + fockZ d' j * fockZ d i
    = if d ≠ d' ∧ i = j then 1 else 0 := by decide

theorem fockZ_pair : ∀ i j : Fin 2, (fockZ true i * fockZ false j) 3 3 = if i = j then 1 else 0 := by
  decide

theorem fockZ_wick : ∀ a b c d : Fin 2,
    (fockZ true a * fockZ true b * fockZ false c * fockZ false d) 3 3
      = (fockZ true a * fockZ false d) 3 3 * (fockZ true b * fockZ false c) 3 3
        - (fockZ true a * fockZ false c) 3 3 * (fockZ true b * fockZ false d) 3 3 := by
  decide

/-- elementary operators as complex matrices -/
def fock (g : Operators.Gen (Fin 2)) : Matrix (Fin 4) (Fin 4) ℂ :=
  (Int.castRingHom ℂ).mapMatrix (fockZ g.dag g.idx)

theorem fock_car : Operators.CAR fock := by
  intro g h
  unfold fock
  rw [← map_mul, ← map_mul, ← map_add, fockZ_car, Operators.contraction]
  split_ifs <;> simp

/-- expectation value in the state with both modes occupied -/
def full : Matrix (Fin 4) (Fin 4) ℂ →ₗ[ℂ] ℂ where
  toFun m := m 3 3
  map_add' _ _ := rfl
  map_smul' _ _ := rfl

theorem full_fock (m : Matrix (Fin 4) (Fin 4) ℤ) :
    full ((Int.castRingHom ℂ).mapMatrix m) = (m 3 3 : ℂ) := rfl

theorem full_wick : WickState [(0 : Fin 2), 1] fock full 1 where
  one := by change (1 : Matrix (Fin 4) (Fin 4) ℂ) 3 3 = 1; simp
  pair a b := by
    unfold fock
    rw [← map_mul, full_fock, fockZ_pair]
    fin_cases a <;> fin_cases b <;> simp
  wick a b c d := by
    unfold fock
    simp only [← map_mul, full_fock]
    rw [fockZ_wick]
    push_cast
    rfl

open Verif.Operators in
/-- the Hubbard interaction `c^+_0 c^+_1 c_1 c_0 = n_0 n_1` -/
def hubbardU : Op (Fin 2) :=
  Finsupp.single [⟨true, 0⟩, ⟨true, 1⟩, ⟨false, 1⟩, ⟨false, 0⟩] 1

open Verif.Operators Classical in
/-- C48 is violated: for the Hubbard interaction with unit strength and both modes occupied (no
kinetic energy) the energy is `+1`, the reported `E_tot` is `-1`. -/
theorem C48_violated : ∃ (ts : List (Mono (Fin 2) × ℂ)) (U : T4 2), Canonical hubbardU ∧
    Enumerates ts hubbardU ∧ getRpaTensor [(0 : Fin 2), 1] ts = .ok U ∧
    WickState [(0 : Fin 2), 1] fock full (density fun _ : Unit => 1) ∧
    full (eval fock hubbardU) = 1 ∧
    eTot U (fun _ : Unit => 0) (fun _ => 1) = -1 := by
  have hC : Canonical hubbardU := by
    intro m hm
    have := Finsupp.support_single_subset hm
    rw [Finset.mem_singleton] at this
    subst this
    decide
  obtain ⟨ts, hts⟩ := exists_enumerates hubbardU
  have hnd : [(0 : Fin 2), 1].Nodup := by decide
  obtain ⟨U, hU⟩ := C37_accepts [(0 : Fin 2), 1] hnd hubbardU hC ts hts (by
    intro m hm _
    have := Finsupp.support_single_subset hm
    rw [Finset.mem_singleton] at this
    subst this
    rfl)
  have hd : density (fun _ : Unit => (1 : Matrix (Fin 2) (Fin 2) ℂ)) = 1 := by
    ext a b
    simp [density]
  have hw : WickState [(0 : Fin 2), 1] fock full
      (density fun _ : Unit => (1 : Matrix (Fin 2) (Fin 2) ℂ)) := by
    rw [hd]; exact full_wick
  have hq : hubbardU.filter (IsQuartic [(0 : Fin 2), 1]) = hubbardU := by
    rw [Finsupp.filter_eq_self_iff]
    intro m hm
    have := Finsupp.support_single_subset (Finsupp.mem_support_iff.2 hm)
    rw [Finset.mem_singleton] at this
    subst this
    exact ⟨by rfl, by decide⟩
  have hfull : full (eval fock hubbardU) = 1 := by
    rw [eval_eq, hubbardU, evalL_single, one_smul]
    simp only [List.map_cons, List.map_nil, List.prod_cons, List.prod_nil, mul_one, fock]
    simp only [← map_mul, full_fock]
    have : (fockZ true 0 * (fockZ true 1 * (fockZ false 1 * fockZ false 0))) 3 3 = 1 := by decide
    rw [this]; simp
  refine ⟨ts, U, hC, hts, hU, hw, hfull, ?_⟩
  have := C48_partial [(0 : Fin 2), 1] hnd hubbardU hC ts hts U hU fock fock_car full
    (fun _ : Unit => 0) (fun _ => 1) hw
  rw [hq, hfull] at this
  refine this.trans ?_
  simp

/-! ## C49: forward iteration -/

section Iter

variable {E : Type*} [AddCommGroup E] [Module ℝ E]

/-- one mixed step -/
def mixed (F : E → E) (mixing : ℝ) (rho : E) : E := (1 - mixing) • rho + mixing • F rho

/-- the convergence criterion: relative change below `tol` -/
def Converged (F : E → E) (nrm : E → ℝ) (tol : ℝ) (rho : E) : Prop :=
  nrm rho ≠ 0 ∧ nrm (rho - F rho) / nrm rho < tol

theorem iterLoop_spec (F : E → E) (nrm : E → ℝ) (mixing tol : ℝ) (fuel : ℕ) (rho : E)
    (hist : List E) (last : Option E) :
    ∃ L ≤ fuel, let r := iterLoop F nrm mixing tol fuel rho hist last
      r.history = hist ++ (List.range L).map (fun i => (mixed F mixing)^[i] rho) ∧
      r.last = (if L = 0 then last else some (F ((mixed F mixing)^[L - 1] rho))) ∧
      (r.converged = true → 0 < L ∧ Converged F nrm tol ((mixed F mixing)^[L - 1] rho) ∧
        ∀ i < L - 1, ¬ Converged F nrm tol ((mixed F mixing)^[i] rho)) ∧
      (r.converged = false → L = fuel ∧
        ∀ i < fuel, ¬ Converged F nrm tol ((mixed F mixing)^[i] rho)) := by
  induction fuel generalizing rho hist last with
  | zero => exact ⟨0, le_rfl, by simp [iterLoop]⟩
  | succ fuel ih =>
    by_cases hc : Converged F nrm tol rho
    · refine ⟨1, by omega, ?_⟩
      have hc' := hc
      unfold Converged at hc'
      simp only [iterLoop, if_pos hc']
      refine ⟨by simp, by simp, ?_, by simp⟩
      intro _
      exact ⟨by omega, by simpa using hc, by simp⟩
    · have hc' := hc
      unfold Converged at hc'
      obtain ⟨L, hL, h1, h2, h3, h4⟩ := ih (mixed F mixing rho) (hist ++ [rho]) (some (F rho))
      refine ⟨L + 1, by omega, ?_⟩
      simp only [iterLoop, if_neg hc']
      change (iterLoop F nrm mixing tol fuel (mixed F mixing rho) (hist ++ [rho])
        (some (F rho))).history = _ ∧ _
      refine ⟨?_, ?_, ?_, ?_⟩
      · rw [h1, List.range_succ_eq_map, List.map_cons, List.map_map, List.append_assoc]
        rfl
      · refine Eq.trans h2 ?_
        rcases L with _ | L
        · simp
        · simp
      · intro hcv
        obtain ⟨k1, k2, k3⟩ := h3 hcv
        obtain ⟨L, rfl⟩ : ∃ L', L = L' + 1 := ⟨L - 1, by omega⟩
        refine ⟨by omega, ?_, ?_⟩
        · simpa using k2
        · intro i hi
          rcases i with _ | i
          · simpa using hc
          · have := k3 i (by omega)
            simpa using this
      · intro hcv
        obtain ⟨k1, k2⟩ := h4 hcv
        refine ⟨by omega, ?_⟩
        intro i hi
        rcases i with _ | i
        · simpa using hc
        · have := k2 i (by omega)
          simpa using this

/-- C49: at most `nitermax` densities are recorded, they are the iterates of linear mixing from the
initial density; the solver is left in the state of the last step; it stops by convergence exactly
at the first density whose relative change is below the tolerance. -/
theorem C49_solve_iter (F : E → E) (nrm : E → ℝ) (rho0 : E) (nitermax : ℕ) (mixing tol : ℝ)
    (h0 : 0 ≤ mixing) (h1 : mixing ≤ 1) :
    ∃ r L, solveIter F nrm rho0 nitermax mixing tol = .ok r ∧ L ≤ nitermax ∧
      r.history = (List.range L).map (fun i => (mixed F mixing)^[i] rho0) ∧
      r.last = (if L = 0 then none else some (F ((mixed F mixing)^[L - 1] rho0))) ∧
      (r.converged = true ↔
        ∃ i < nitermax, Converged F nrm tol ((mixed F mixing)^[i] rho0)) ∧
      (r.converged = true → 0 < L ∧ Converged F nrm tol ((mixed F mixing)^[L - 1] rho0) ∧
        ∀ i < L - 1, ¬ Converged F nrm tol ((mixed F mixing)^[i] rho0)) ∧
      (r.converged = false → L = nitermax) := by
  obtain ⟨L, hL, k1, k2, k3, k4⟩ := iterLoop_spec F nrm mixing tol nitermax rho0 [] none
  refine ⟨_, L, ?_, hL, by simpa using k1, k2, ?_, k3, fun h => (k4 h).1⟩
  · unfold solveIter
    rw [if_neg (not_not.2 h0), if_neg (not_not.2 h1)]
  · constructor
    · intro h
      obtain ⟨a, b, -⟩ := k3 h
      exact ⟨L - 1, by omega, b⟩
    · rintro ⟨i, hi, hc⟩
      by_contra hne
      exact (k4 (by simpa using hne)).2 i hi hc

/-- C49: a mixing outside `[0, 1]` is refused. -/
theorem C49_refuses (F : E → E) (nrm : E → ℝ) (rho0 : E) (nitermax : ℕ) (mixing tol : ℝ)
    (h : mixing < 0 ∨ 1 < mixing) :
    solveIter F nrm rho0 nitermax mixing tol = .error "AssertionError" := by
  unfold solveIter
  rcases h with h | h
  · rw [if_pos (not_le.2 h)]
  · rw [if_neg (by rw [not_not]; linarith), if_pos (not_le.2 h)]

/-- C49: with zero mixing every recorded density is the initial one. -/
theorem C49_mixing_zero (F : E → E) (rho0 : E) (i : ℕ) : (mixed F 0)^[i] rho0 = rho0 := by
  have : mixed F 0 = id := by
    funext x
    simp [mixed]
  rw [this, Function.iterate_id]
  rfl

/-- C49: a density recorded twice in a row with non zero mixing is a fixed point of the density
step. -/
theorem C49_fixed_point (F : E → E) (mixing : ℝ) (hm : mixing ≠ 0) (rho : E)
    (h : mixed F mixing rho = rho) : F rho = rho := by
  have h2 : mixing • (F rho - rho) = 0 := by
    have : mixed F mixing rho - rho = mixing • (F rho - rho) := by
      unfold mixed
      module
    rw [← this, h, sub_self]
  exact sub_eq_zero.1 ((smul_eq_zero.1 h2).resolve_left hm)

end Iter

/-- a convergent example: the step `x ↦ x / 2 + 1` on the reals reaches its tolerance -/
example : ∃ r, solveIter (fun x : ℝ => x / 2 + 1) (fun x => |x|) 2 10 0.5 0.1 = .ok r ∧
    r.converged = true := by
  obtain ⟨r, L, h1, -, -, -, h2, -⟩ := C49_solve_iter (fun x : ℝ => x / 2 + 1) (fun x => |x|) 2 10
    0.5 0.1 (by norm_num) (by norm_num)
  refine ⟨r, h1, h2.2 ⟨0, by norm_num, ?_⟩⟩
  simp only [Converged, Function.iterate_zero, id]
  norm_num

/-! ## C75: density matrix and thermodynamic consistency -/

/-- C75: the momentum density matrix does not depend on which eigenbasis the diagonalisation
returns: it is the Fermi function of the mean field Hamiltonian. -/
theorem C75_basis {κ : Type*} (beta mu : ℝ) (h : κ → Matrix (Fin n) (Fin n) ℂ)
    (e e' : κ → Fin n → ℝ) (V V' : κ → Matrix (Fin n) (Fin n) ℂ)
    (hp : ∀ k, Lindhard.Diag (h k) (e k, V k)) (hq : ∀ k, Lindhard.Diag (h k) (e' k, V' k)) :
    momentumDensity beta mu e V = momentumDensity beta mu e' V' := by
  have key : ∀ (e : κ → Fin n → ℝ) (V : κ → Matrix (Fin n) (Fin n) ℂ) k,
      momentumDensity beta mu e V k
        = Lindhard.matFun (e k, V k) fun x => (fermi beta (x - mu) : ℂ) := by
    intro e V k
    ext a b
    rw [Lindhard.matFun_apply]
    rfl
  funext k
  rw [key, key, Lindhard.matFun_unique (hp k) (hq k)]

/-- C75: the density matrix is hermitian. -/
theorem C75_hermitian {κ : Type*} [Fintype κ] (beta mu : ℝ) (e : κ → Fin n → ℝ)
    (V : κ → Matrix (Fin n) (Fin n) ℂ) :
    (density (momentumDensity beta mu e V)).IsHermitian := by
  ext a b
  rw [conjTranspose_apply]
  simp only [density, momentumDensity, star_div₀, star_sum, star_mul']
  congr 1
  · refine Finset.sum_congr rfl fun k _ => Finset.sum_congr rfl fun c _ => ?_
    simp
    ring
  · simp

/-- C75: the particle number, for normalised eigenvectors. -/
theorem C75_number {κ : Type*} [Fintype κ] (beta mu : ℝ) (e : κ → Fin n → ℝ)
    (V : κ → Matrix (Fin n) (Fin n) ℂ) (hV : ∀ k, (V k)ᴴ * V k = 1) :
    Matrix.trace (density (momentumDensity beta mu e V))
      = (((∑ k, ∑ b, fermi beta (e k b - mu)) / (Fintype.card κ : ℝ) : ℝ) : ℂ) := by
  have hn : ∀ k b, ∑ a, V k a b * (starRingEnd ℂ) (V k a b) = 1 := by
    intro k b
    have := congrFun (congrFun (hV k) b) b
    rw [Matrix.mul_apply, Matrix.one_apply_eq] at this
    rw [← this]
    refine Finset.sum_congr rfl fun a _ => ?_
    rw [conjTranspose_apply, mul_comm]
    rfl
  simp only [Matrix.trace, Matrix.diag_apply, density, momentumDensity]
  rw [← Finset.sum_div, Finset.sum_comm]
  push_cast
  congr 1
  refine Finset.sum_congr rfl fun k _ => ?_
  rw [Finset.sum_comm]
  refine Finset.sum_congr rfl fun b _ => ?_
  calc ∑ a, V k a b * (fermi beta (e k b - mu) : ℂ) * (starRingEnd ℂ) (V k a b)
      = (fermi beta (e k b - mu) : ℂ) * ∑ a, V k a b * (starRingEnd ℂ) (V k a b) := by
        rw [Finset.mul_sum]
        exact Finset.sum_congr rfl fun a _ => by ring
    _ = _ := by rw [hn, mul_one]

/-- C75 (thermodynamic consistency): the derivative of the non-interacting free energy with respect
to the chemical potential is minus the particle number of the density matrix. -/
theorem C75_derivative {κ : Type*} [Fintype κ] (beta mu : ℝ) (hb : beta ≠ 0) (e : κ → Fin n → ℝ)
    (V : κ → Matrix (Fin n) (Fin n) ℂ) (hV : ∀ k, (V k)ᴴ * V k = 1) :
    HasDerivAt (fun m => omega0 beta m e)
      (-(Matrix.trace (density (momentumDensity beta mu e V))).re) mu := by
  rw [C75_number beta mu e V hV, Complex.ofReal_re]
  have h1 : ∀ x : ℝ, HasDerivAt (fun m => Real.log (1 + Real.exp (-beta * (x - m))))
      (beta * fermi beta (x - mu)) mu := by
    intro x
    have hin : HasDerivAt (fun m : ℝ => -beta * (x - m)) beta mu := by
      have := ((hasDerivAt_const mu x).sub (hasDerivAt_id mu)).const_mul (-beta)
      exact this.congr_deriv (by simp)
    have hexp := hin.exp
    have hone := hexp.const_add 1
    have hpos : 1 + Real.exp (-beta * (x - mu)) ≠ 0 := by positivity
    refine (hone.log hpos).congr_deriv ?_
    unfold fermi
    have hE : Real.exp (-beta * (x - mu)) = (Real.exp (beta * (x - mu)))⁻¹ := by
      rw [← Real.exp_neg]; congr 1; ring
    rw [hE]
    have := Real.exp_pos (beta * (x - mu))
    field_simp
  have h2 : HasDerivAt (fun m => ∑ k, ∑ b, Real.log (1 + Real.exp (-beta * (e k b - m))))
      (∑ k, ∑ b, beta * fermi beta (e k b - mu)) mu :=
    HasDerivAt.fun_sum fun k _ => HasDerivAt.fun_sum fun b _ => h1 (e k b)
  have h3 := (h2.const_mul (-1 / beta)).div_const (Fintype.card κ : ℝ)
  refine h3.congr_deriv ?_
  simp only [← Finset.mul_sum]
  field_simp

/-- occupations lie strictly between zero and one -/
theorem C75_occupation (beta e : ℝ) : 0 < fermi beta e ∧ fermi beta e < 1 := by
  unfold fermi
  have := Real.exp_pos (beta * e)
  refine ⟨by positivity, ?_⟩
  rw [div_lt_one (by positivity)]
  linarith

/-- an orthonormal eigenbasis always exists -/
example (h : Matrix (Fin n) (Fin n) ℂ) (hh : h.IsHermitian) : ∃ p, Lindhard.Diag h p := by
  obtain ⟨eig, he⟩ := Lindhard.exists_eigSpec (o := Fin n)
  exact ⟨eig h, he h hh⟩

end Verif.HartreeFock
