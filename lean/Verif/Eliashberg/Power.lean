import Verif.Eliashberg.Model
import Mathlib.Tactic.Linarith
import Mathlib.Tactic.Positivity
import Mathlib.Tactic.FieldSimp
import Mathlib.Tactic.Ring
import Mathlib.Tactic.LinearCombination
import Mathlib.Tactic.NormNum
import Mathlib.Data.Fin.VecNotation
import Mathlib.Algebra.Order.BigOperators.Group.Finset
import Mathlib.Analysis.Complex.Basic
import Mathlib.Analysis.SpecialFunctions.Sqrt

/-!
C62: the power method with a shift, `power_method_LR`.
-/

set_option linter.unusedSectionVars false

noncomputable section

namespace Verif.Eliashberg

variable {ι : Type*} [Fintype ι]

theorem norm2_nonneg (v : ι → ℂ) : 0 ≤ norm2 v := Real.sqrt_nonneg _

theorem norm2_sq (v : ι → ℂ) : norm2 v ^ 2 = ∑ i, ‖v i‖ ^ 2 :=
  Real.sq_sqrt (Finset.sum_nonneg fun _ _ => by positivity)

theorem norm2_eq_zero {v : ι → ℂ} : norm2 v = 0 ↔ v = 0 := by
  rw [norm2, Real.sqrt_eq_zero (Finset.sum_nonneg fun _ _ => by positivity),
    Finset.sum_eq_zero_iff_of_nonneg fun _ _ => by positivity]
  constructor
  · intro h
    funext i
    have := h i (Finset.mem_univ i)
    simpa using this
  · rintro rfl i -
    simp

theorem norm2_smul (c : ℂ) (v : ι → ℂ) : norm2 (fun i => c * v i) = ‖c‖ * norm2 v := by
  rw [norm2, norm2]
  simp only [norm_mul, mul_pow, ← Finset.mul_sum]
  rw [Real.sqrt_mul (by positivity), Real.sqrt_sq (norm_nonneg c)]

theorem norm2_normalised {v : ι → ℂ} (h : norm2 v ≠ 0) : norm2 (fun i => v i / norm2 v) = 1 := by
  have : (fun i => v i / (norm2 v : ℂ)) = fun i => (norm2 v : ℂ)⁻¹ * v i := by
    funext i; rw [div_eq_inv_mul]
  rw [this, norm2_smul, norm_inv, Complex.norm_real, Real.norm_of_nonneg (norm2_nonneg v), inv_mul_cancel₀ h]

theorem iteration_spec {A : (ι → ℂ) → ι → ℂ} {offset : ℝ} {v new : ι → ℂ} {norm : ℝ}
    (h : iteration A offset v = some (norm, new)) :
    offset < norm ∧ norm2 new = 1 ∧ (∀ i, A v i - offset * v i = (norm - offset : ℝ) * new i)
      ∧ norm = norm2 (fun i => A v i - offset * v i) + offset := by
  rw [iteration] at h
  dsimp only at h
  by_cases h0 : norm2 (fun i => A v i - offset * v i) = 0
  · rw [if_pos h0] at h; exact (nomatch h)
  · rw [if_neg h0] at h
    simp only [Option.some.injEq, Prod.mk.injEq] at h
    obtain ⟨rfl, rfl⟩ := h
    have hp : 0 < norm2 (fun i => A v i - offset * v i) := lt_of_le_of_ne (norm2_nonneg _) (Ne.symm h0)
    refine ⟨by linarith, norm2_normalised h0, fun i => ?_, rfl⟩
    rw [add_sub_cancel_right, mul_div_cancel₀]
    exact_mod_cast h0

theorem powerLoop_spec {A : (ι → ℂ) → ι → ℂ} {offset tol : ℝ} : ∀ {fuel it : ℕ} {v : ι → ℂ} {norm : ℝ} {u : ι → ℂ}
    {it' : ℕ}, powerLoop A offset tol fuel it v = some (norm, u, it') →
    (norm2 v = 1 → norm2 u = 1) ∧ it' ≤ it + fuel + 1 ∧
      ∃ new, iteration A offset u = some (norm, new) ∧ converged tol u new := by
  intro fuel
  induction fuel with
  | zero =>
    intro it v norm u it' h
    rw [powerLoop] at h
    cases hi : iteration A offset v with
    | none => rw [hi] at h; exact (nomatch h)
    | some r =>
      rw [hi] at h
      dsimp only at h
      by_cases hc : converged tol v r.2
      · rw [if_pos hc] at h
        simp only [Option.some.injEq, Prod.mk.injEq] at h
        obtain ⟨rfl, rfl, rfl⟩ := h
        exact ⟨id, by omega, r.2, hi, hc⟩
      · rw [if_neg hc] at h; exact (nomatch h)
  | succ fuel ih =>
    intro it v norm u it' h
    rw [powerLoop] at h
    cases hi : iteration A offset v with
    | none => rw [hi] at h; exact (nomatch h)
    | some r =>
      rw [hi] at h
      dsimp only at h
      by_cases hc : converged tol v r.2
      · rw [if_pos hc] at h
        simp only [Option.some.injEq, Prod.mk.injEq] at h
        obtain ⟨rfl, rfl, rfl⟩ := h
        exact ⟨id, by omega, r.2, hi, hc⟩
      · rw [if_neg hc] at h
        obtain ⟨h1, h2, h3⟩ := ih h
        exact ⟨fun _ => h1 (iteration_spec hi).2.1, by omega, h3⟩

theorem powerMethod_spec {A : (ι → ℂ) → ι → ℂ} {offset tol : ℝ} {maxIt : ℕ} {init : ι → ℂ} {norm : ℝ} {u : ι → ℂ}
    {it : ℕ} (h : powerMethod A offset tol maxIt init = some (norm, u, it)) :
    norm2 u = 1 ∧ it ≤ max maxIt 1 ∧
      ∃ new, iteration A offset u = some (norm, new) ∧ converged tol u new := by
  rw [powerMethod] at h
  cases hi : iteration A offset init with
  | none => rw [hi] at h; exact (nomatch h)
  | some r =>
    rw [hi] at h
    obtain ⟨h1, h2, h3⟩ := powerLoop_spec h
    exact ⟨h1 (iteration_spec hi).2.1, by omega, h3⟩

/-- the vector is nearer to its image than to the negative of it (the sign test of the code, without normalisation) -/
def Forward (A : (ι → ℂ) → ι → ℂ) (v : ι → ℂ) : Prop :=
  ∑ i, ‖norm2 (A v) * v i - A v i‖ ≤ ∑ i, ‖norm2 (A v) * v i + A v i‖

theorem powerMethodLR_cases {A : (ι → ℂ) → ι → ℂ} {tol : ℝ} {maxIt : ℕ} {init : ι → ℂ} {norm : ℝ} {v : ι → ℂ} {it : ℕ}
    (h : powerMethod A 0 tol maxIt init = some (norm, v, it)) :
    (Forward A v → powerMethodLR A tol maxIt init = some (norm, v, it)) ∧
    (¬ Forward A v → powerMethodLR A tol maxIt init
      = (powerMethod A (-norm) tol maxIt init).map fun r => (r.1, r.2.1, it + r.2.2)) := by
  obtain ⟨-, -, new, hi, -⟩ := powerMethod_spec h
  obtain ⟨hn, -, hA, hnorm⟩ := iteration_spec hi
  have hA' : ∀ i, A v i = norm * new i := by
    intro i
    have := hA i
    simpa using this
  have hN : norm2 (A v) = norm := by
    rw [hnorm]; simp
  have key : Forward A v ↔ ¬ ∑ i, ‖v i - new i‖ > ∑ i, ‖v i + new i‖ := by
    rw [Forward, hN, not_lt]
    have e1 : ∀ i, ‖(norm : ℂ) * v i - A v i‖ = norm * ‖v i - new i‖ := by
      intro i
      rw [hA' i, ← mul_sub, norm_mul, Complex.norm_real, Real.norm_of_nonneg hn.le]
    have e2 : ∀ i, ‖(norm : ℂ) * v i + A v i‖ = norm * ‖v i + new i‖ := by
      intro i
      rw [hA' i, ← mul_add, norm_mul, Complex.norm_real, Real.norm_of_nonneg hn.le]
    simp only [e1, e2, ← Finset.mul_sum]
    exact mul_le_mul_iff_right₀ hn
  constructor
  · intro hf
    rw [powerMethodLR, h]
    dsimp only
    rw [hi]
    dsimp only
    rw [if_neg (key.1 hf)]
  · intro hf
    rw [powerMethodLR, h]
    dsimp only
    rw [hi]
    dsimp only
    rw [if_pos (not_not.1 fun hc => hf (key.2 hc))]
    cases powerMethod A (-norm) tol maxIt init <;> rfl

theorem powerMethodLR_some {A : (ι → ℂ) → ι → ℂ} {tol : ℝ} {maxIt : ℕ} {init : ι → ℂ} {lam : ℝ} {v : ι → ℂ} {it : ℕ}
    (h : powerMethodLR A tol maxIt init = some (lam, v, it)) :
    ∃ norm u it1, powerMethod A 0 tol maxIt init = some (norm, u, it1) ∧
      ((Forward A u ∧ lam = norm ∧ v = u ∧ it = it1) ∨
       (¬ Forward A u ∧ ∃ it2, powerMethod A (-norm) tol maxIt init = some (lam, v, it2) ∧ it = it1 + it2)) := by
  cases h1 : powerMethod A 0 tol maxIt init with
  | none => rw [powerMethodLR, h1] at h; exact (nomatch h)
  | some r =>
    obtain ⟨norm, u, it1⟩ := r
    refine ⟨norm, u, it1, rfl, ?_⟩
    obtain ⟨hf, hb⟩ := powerMethodLR_cases h1
    by_cases hF : Forward A u
    · left
      rw [hf hF] at h
      simp only [Option.some.injEq, Prod.mk.injEq] at h
      exact ⟨hF, h.1.symm, h.2.1.symm, h.2.2.symm⟩
    · right
      rw [hb hF] at h
      refine ⟨hF, ?_⟩
      cases h2 : powerMethod A (-norm) tol maxIt init with
      | none => rw [h2] at h; exact (nomatch h)
      | some r =>
        rw [h2] at h
        simp only [Option.map_some, Option.some.injEq, Prod.mk.injEq] at h
        obtain ⟨rfl, rfl, rfl⟩ := h
        exact ⟨r.2.2, rfl, rfl⟩

/-- C62: the method stops after at most `max_it` passes per stage, for every map and every start vector (the loops are
bounded), and returns a vector of unit length. -/
theorem C62_bounded_unit {A : (ι → ℂ) → ι → ℂ} {tol : ℝ} {maxIt : ℕ} {init : ι → ℂ} {lam : ℝ} {v : ι → ℂ} {it : ℕ}
    (h : powerMethodLR A tol maxIt init = some (lam, v, it)) :
    it ≤ 2 * max maxIt 1 ∧ ∑ i, ‖v i‖ ^ 2 = 1 := by
  have unit : ∀ w : ι → ℂ, norm2 w = 1 → ∑ i, ‖w i‖ ^ 2 = 1 := by
    intro w hw
    rw [← norm2_sq, hw, one_pow]
  obtain ⟨norm, u, it1, h1, hc⟩ := powerMethodLR_some h
  obtain ⟨u1, b1, -⟩ := powerMethod_spec h1
  rcases hc with ⟨-, -, rfl, rfl⟩ | ⟨-, it2, h2, rfl⟩
  · exact ⟨by omega, unit _ u1⟩
  · obtain ⟨u2, b2, -⟩ := powerMethod_spec h2
    exact ⟨by omega, unit _ u2⟩

/-- the vector after `m` normalised applications of the (shifted) operator -/
def iterates (A : (ι → ℂ) → ι → ℂ) (offset : ℝ) : ℕ → (ι → ℂ) → Option (ι → ℂ)
  | 0, v => some v
  | m + 1, v => (iteration A offset v).bind fun r => iterates A offset m r.2

theorem powerLoop_iterates {A : (ι → ℂ) → ι → ℂ} {offset tol : ℝ} : ∀ {fuel it : ℕ} {v : ι → ℂ} {norm : ℝ}
    {u : ι → ℂ} {it' : ℕ}, powerLoop A offset tol fuel it v = some (norm, u, it') →
    ∃ m, it' = it + m + 1 ∧ iterates A offset m v = some u := by
  intro fuel
  induction fuel with
  | zero =>
    intro it v norm u it' h
    rw [powerLoop] at h
    cases hi : iteration A offset v with
    | none => rw [hi] at h; exact (nomatch h)
    | some r =>
      rw [hi] at h
      dsimp only at h
      by_cases hc : converged tol v r.2
      · rw [if_pos hc] at h
        simp only [Option.some.injEq, Prod.mk.injEq] at h
        obtain ⟨rfl, rfl, rfl⟩ := h
        exact ⟨0, rfl, rfl⟩
      · rw [if_neg hc] at h; exact (nomatch h)
  | succ fuel ih =>
    intro it v norm u it' h
    rw [powerLoop] at h
    cases hi : iteration A offset v with
    | none => rw [hi] at h; exact (nomatch h)
    | some r =>
      rw [hi] at h
      dsimp only at h
      by_cases hc : converged tol v r.2
      · rw [if_pos hc] at h
        simp only [Option.some.injEq, Prod.mk.injEq] at h
        obtain ⟨rfl, rfl, rfl⟩ := h
        exact ⟨0, rfl, rfl⟩
      · rw [if_neg hc] at h
        obtain ⟨m, h1, h2⟩ := ih h
        exact ⟨m + 1, by omega, by rw [iterates, hi]; exact h2⟩

/-- C62: the reported number of passes is the number of times the operator was applied to obtain the vector. -/
theorem C62_count {A : (ι → ℂ) → ι → ℂ} {offset tol : ℝ} {maxIt : ℕ} {init : ι → ℂ} {norm : ℝ} {u : ι → ℂ} {it : ℕ}
    (h : powerMethod A offset tol maxIt init = some (norm, u, it)) :
    1 ≤ it ∧ iterates A offset it init = some u := by
  rw [powerMethod] at h
  cases hi : iteration A offset init with
  | none => rw [hi] at h; exact (nomatch h)
  | some r =>
    rw [hi] at h
    obtain ⟨m, rfl, h2⟩ := powerLoop_iterates h
    refine ⟨by omega, ?_⟩
    rw [show 0 + m + 1 = m + 1 by omega, iterates, hi]
    exact h2

/-- C62 (largest eigenvalue by magnitude found to be positive): the result is an eigenpair within the tolerance,
whichever of the two criteria stopped the iteration. -/
theorem C62_eigenpair_partial {A : (ι → ℂ) → ι → ℂ} {tol : ℝ} {maxIt : ℕ} {init : ι → ℂ} {norm : ℝ} {v : ι → ℂ}
    {it : ℕ} (h : powerMethod A 0 tol maxIt init = some (norm, v, it)) (hf : Forward A v) :
    powerMethodLR A tol maxIt init = some (norm, v, it) ∧ 0 < norm ∧
      ∀ i, ‖A v i - norm * v i‖ ≤ norm * (Fintype.card ι * tol) := by
  refine ⟨(powerMethodLR_cases h).1 hf, ?_⟩
  obtain ⟨-, -, new, hi, hc⟩ := powerMethod_spec h
  obtain ⟨hn, -, hA, hnorm⟩ := iteration_spec hi
  refine ⟨hn, fun i => ?_⟩
  have hA' : ∀ i, A v i = norm * new i := fun i => by simpa using hA i
  have hN : norm2 (A v) = norm := by rw [hnorm]; simp
  have e1 : ∀ i, ‖(norm : ℂ) * v i - A v i‖ = norm * ‖v i - new i‖ := by
    intro i
    rw [hA' i, ← mul_sub, norm_mul, Complex.norm_real, Real.norm_of_nonneg hn.le]
  have e2 : ∀ i, ‖(norm : ℂ) * v i + A v i‖ = norm * ‖v i + new i‖ := by
    intro i
    rw [hA' i, ← mul_add, norm_mul, Complex.norm_real, Real.norm_of_nonneg hn.le]
  rw [norm_sub_rev, e1]
  refine mul_le_mul_of_nonneg_left ?_ hn.le
  have hcard : (1 : ℝ) ≤ Fintype.card ι := by
    exact_mod_cast Fintype.card_pos_iff.2 ⟨i⟩
  rcases hc with hadd | hdiff
  · rw [Forward, hN] at hf
    simp only [e1, e2, ← Finset.mul_sum] at hf
    have hs := (mul_le_mul_iff_right₀ hn).1 hf
    calc ‖v i - new i‖ ≤ ∑ j, ‖v j - new j‖ :=
          Finset.single_le_sum (f := fun j => ‖v j - new j‖) (fun j _ => norm_nonneg _) (Finset.mem_univ i)
      _ ≤ ∑ j, ‖v j + new j‖ := hs
      _ ≤ ∑ _j : ι, tol := Finset.sum_le_sum fun j _ => hadd j
      _ = Fintype.card ι * tol := by rw [Finset.sum_const, Finset.card_univ, nsmul_eq_mul]
  · have ht : 0 ≤ tol := le_trans (norm_nonneg _) (hdiff i)
    calc ‖v i - new i‖ ≤ tol := hdiff i
      _ ≤ Fintype.card ι * tol := by nlinarith

/-- C62 (all cases): the returned vector is an eigenvector within the tolerance, but the eigenvalue may be the mirror
image of the returned number at the shift `-norm` (the second stage accepts sign-alternating vectors without
correcting the sign). -/
theorem C62_shifted_partial {A : (ι → ℂ) → ι → ℂ} {tol : ℝ} {maxIt : ℕ} {init : ι → ℂ} {norm : ℝ} {u : ι → ℂ}
    {it1 : ℕ} (h1 : powerMethod A 0 tol maxIt init = some (norm, u, it1)) (hf : ¬ Forward A u)
    {lam : ℝ} {v : ι → ℂ} {it : ℕ} (h : powerMethodLR A tol maxIt init = some (lam, v, it)) :
    -norm < lam ∧
    ((∀ i, ‖A v i - lam * v i‖ ≤ (lam + norm) * tol) ∨
      ∀ i, ‖A v i - (-2 * norm - lam : ℝ) * v i‖ ≤ (lam + norm) * tol) := by
  obtain ⟨norm', u', it1', h1', hc⟩ := powerMethodLR_some h
  rw [h1] at h1'
  simp only [Option.some.injEq, Prod.mk.injEq] at h1'
  obtain ⟨rfl, rfl, rfl⟩ := h1'
  rcases hc with ⟨hF, -⟩ | ⟨-, it2, h2, -⟩
  · exact absurd hF hf
  obtain ⟨-, -, new, hi, hconv⟩ := powerMethod_spec h2
  obtain ⟨hn, -, hA, -⟩ := iteration_spec hi
  have hpos : 0 ≤ lam + norm := by linarith
  refine ⟨hn, ?_⟩
  rcases hconv with hadd | hdiff
  · right
    intro i
    have : A v i - (-2 * norm - lam : ℝ) * v i = (lam + norm : ℝ) * (v i + new i) := by
      have h := hA i
      push_cast at h ⊢
      linear_combination h
    rw [this, norm_mul, Complex.norm_real, Real.norm_of_nonneg hpos]
    exact mul_le_mul_of_nonneg_left (hadd i) hpos
  · left
    intro i
    have : A v i - lam * v i = -((lam + norm : ℝ) * (v i - new i)) := by
      have h := hA i
      push_cast at h ⊢
      linear_combination h
    rw [this, norm_neg, norm_mul, Complex.norm_real, Real.norm_of_nonneg hpos]
    exact mul_le_mul_of_nonneg_left (hdiff i) hpos

/-- C62 with an exact fixed point of the last iteration (`tol = 0` and the difference criterion of the second stage or
the positive branch): the pair is an exact eigenpair. -/
theorem C62_exact {A : (ι → ℂ) → ι → ℂ} {maxIt : ℕ} {init : ι → ℂ} {norm : ℝ} {v : ι → ℂ} {it : ℕ}
    (h : powerMethod A 0 0 maxIt init = some (norm, v, it)) (hf : Forward A v) :
    powerMethodLR A 0 maxIt init = some (norm, v, it) ∧ 0 < norm ∧ ∀ i, A v i = norm * v i := by
  obtain ⟨h1, h2, h3⟩ := C62_eigenpair_partial h hf
  refine ⟨h1, h2, fun i => ?_⟩
  have := h3 i
  rw [mul_zero, mul_zero] at this
  exact sub_eq_zero.1 (norm_le_zero_iff.1 this)

/-- multiplication with a number commutes with the map -/
def Homogeneous (A : (ι → ℂ) → ι → ℂ) : Prop := ∀ (c : ℂ) v i, A (fun j => c * v j) i = c * A v i

theorem iteration_eigen {A : (ι → ℂ) → ι → ℂ} {v : ι → ℂ} {mu offset : ℝ} (hv : v ≠ 0) (hA : ∀ i, A v i = mu * v i)
    (hne : mu ≠ offset) :
    iteration A offset v = some (|mu - offset| * norm2 v + offset,
      fun i => ((mu - offset) / |mu - offset| : ℝ) * (v i / norm2 v)) := by
  have hw : (fun i => A v i - offset * v i) = fun i => ((mu - offset : ℝ) : ℂ) * v i := by
    funext i; rw [hA]; push_cast; ring
  have hn : norm2 (fun i => A v i - offset * v i) = |mu - offset| * norm2 v := by
    rw [hw, norm2_smul, Complex.norm_real, Real.norm_eq_abs]
  have h1 : |mu - offset| ≠ 0 := abs_ne_zero.2 (sub_ne_zero.2 hne)
  have h2 : norm2 v ≠ 0 := fun h => hv (norm2_eq_zero.1 h)
  rw [iteration]
  dsimp only
  rw [hn, if_neg (mul_ne_zero h1 h2)]
  congr 2
  funext i
  rw [hA]
  have h1' : ((|mu - offset| : ℝ) : ℂ) ≠ 0 := by exact_mod_cast h1
  have h2' : (norm2 v : ℂ) ≠ 0 := by exact_mod_cast h2
  push_cast
  field_simp

theorem unit_ne_zero {v : ι → ℂ} (h : norm2 v = 1) : v ≠ 0 := by
  rintro rfl
  rw [norm2_eq_zero.2 rfl] at h
  exact zero_ne_one h

theorem powerLoop_eigen {A : (ι → ℂ) → ι → ℂ} {v : ι → ℂ} {mu tol : ℝ} (hv : norm2 v = 1)
    (hA : ∀ i, A v i = mu * v i) (hmu : mu ≠ 0) (ht : 0 ≤ tol) (fuel it : ℕ) :
    powerLoop A 0 tol fuel it v = some (|mu|, v, it + 1) := by
  have hi := iteration_eigen (offset := 0) (unit_ne_zero hv) hA hmu
  rw [sub_zero, hv, mul_one, add_zero] at hi
  have hconv : converged tol v fun i => ((mu / |mu| : ℝ) : ℂ) * (v i / ((1 : ℝ) : ℂ)) := by
    rcases lt_or_gt_of_ne hmu with hneg | hpos
    · left
      intro i
      rw [abs_of_neg hneg, div_neg, div_self hmu]
      simpa using ht
    · right
      intro i
      rw [abs_of_pos hpos, div_self hmu]
      simpa using ht
  cases fuel <;>
  · rw [powerLoop, hi]
    dsimp only
    rw [if_pos hconv]

theorem norm2_sign_smul {mu : ℝ} (hmu : mu ≠ 0) {v : ι → ℂ} (hv : v ≠ 0) :
    norm2 (fun i => ((mu / |mu| : ℝ) : ℂ) * (v i / norm2 v)) = 1 := by
  rw [norm2_smul, norm2_normalised fun h => hv (norm2_eq_zero.1 h), mul_one, Complex.norm_real, Real.norm_eq_abs,
    abs_div, abs_abs, div_self (abs_ne_zero.2 hmu)]

theorem powerMethod_eigen {A : (ι → ℂ) → ι → ℂ} (hh : Homogeneous A) {v : ι → ℂ} {mu tol : ℝ} (hv : v ≠ 0)
    (hA : ∀ i, A v i = mu * v i) (hmu : mu ≠ 0) (ht : 0 ≤ tol) (maxIt : ℕ) :
    powerMethod A 0 tol maxIt v
      = some (|mu|, fun i => ((mu / |mu| : ℝ) : ℂ) * (v i / norm2 v), 1) := by
  have hi := iteration_eigen (offset := 0) hv hA hmu
  rw [sub_zero, add_zero] at hi
  rw [powerMethod, hi]
  dsimp only
  refine powerLoop_eigen (norm2_sign_smul hmu hv) (fun i => ?_) hmu ht (maxIt - 1) 0
  have e : (fun i => ((mu / |mu| : ℝ) : ℂ) * (v i / norm2 v))
      = fun i => (((mu / |mu| : ℝ) : ℂ) * (norm2 v : ℂ)⁻¹) * v i := by
    funext i; rw [div_eq_mul_inv]; ring
  rw [e, hh, hA]
  ring

/-- C62: started from an eigenvector with a positive eigenvalue the method returns this eigenpair (normalised) after
one pass. -/
theorem C62_eigenvector_start {A : (ι → ℂ) → ι → ℂ} (hh : Homogeneous A) {v : ι → ℂ} {mu tol : ℝ} (hv : v ≠ 0)
    (hA : ∀ i, A v i = mu * v i) (hmu : 0 < mu) (ht : 0 ≤ tol) (maxIt : ℕ) :
    powerMethodLR A tol maxIt v = some (mu, fun i => v i / norm2 v, 1) := by
  have h := powerMethod_eigen hh hv hA hmu.ne' ht maxIt
  rw [abs_of_pos hmu, div_self hmu.ne'] at h
  simp only [Complex.ofReal_one, one_mul] at h
  refine (powerMethodLR_cases h).1 ?_
  have e : (fun i => v i / (norm2 v : ℂ)) = fun i => (norm2 v : ℂ)⁻¹ * v i := by
    funext i; rw [div_eq_inv_mul]
  have hA' : ∀ i, A (fun i => v i / (norm2 v : ℂ)) i = mu * (v i / norm2 v) := by
    intro i
    rw [e, hh, hA, div_eq_inv_mul]
    ring
  have hn : norm2 (A fun i => v i / (norm2 v : ℂ)) = mu := by
    rw [show (A fun i => v i / (norm2 v : ℂ)) = fun i => (mu : ℂ) * (v i / norm2 v) from funext hA', norm2_smul,
      norm2_normalised fun h => hv (norm2_eq_zero.1 h), Complex.norm_real, Real.norm_of_nonneg hmu.le, mul_one]
  rw [Forward, hn]
  refine Finset.sum_le_sum fun i _ => ?_
  rw [hA', sub_self, norm_zero]
  exact norm_nonneg _

/-- C62 is violated for eigenvectors with a negative eigenvalue: whatever the map, the tolerance and the limit, started
from such a vector the method ends with "Did not converge.", because the shifted map annihilates the start vector. -/
theorem C62_negative_violated {A : (ι → ℂ) → ι → ℂ} (hh : Homogeneous A) {v : ι → ℂ} {mu tol : ℝ} (hv : v ≠ 0)
    (hA : ∀ i, A v i = mu * v i) (hmu : mu < 0) (ht : 0 ≤ tol) (maxIt : ℕ) :
    powerMethodLR A tol maxIt v = none := by
  have h := powerMethod_eigen hh hv hA hmu.ne ht maxIt
  have hdiv : mu / |mu| = -1 := by rw [abs_of_neg hmu, div_neg, div_self hmu.ne]
  rw [hdiv] at h
  have e : (fun i => ((-1 : ℝ) : ℂ) * (v i / (norm2 v : ℂ))) = fun i => (-(norm2 v : ℂ)⁻¹) * v i := by
    funext i; rw [div_eq_inv_mul]; push_cast; ring
  rw [e] at h
  have hA' : ∀ i, A (fun i => (-(norm2 v : ℂ)⁻¹) * v i) i = mu * ((-(norm2 v : ℂ)⁻¹) * v i) := by
    intro i
    rw [hh, hA]
    ring
  have hn : norm2 (A fun i => (-(norm2 v : ℂ)⁻¹) * v i) = |mu| := by
    rw [show (A fun i => (-(norm2 v : ℂ)⁻¹) * v i) = fun i => (mu : ℂ) * ((-(norm2 v : ℂ)⁻¹) * v i) from funext hA',
      norm2_smul, norm2_smul, norm_neg, norm_inv, Complex.norm_real, Complex.norm_real,
      Real.norm_of_nonneg (norm2_nonneg v), inv_mul_cancel₀ fun h => hv (norm2_eq_zero.1 h), Real.norm_eq_abs, mul_one]
  have hf : ¬ Forward A (fun i => (-(norm2 v : ℂ)⁻¹) * v i) := by
    rw [Forward, hn, not_le]
    obtain ⟨i, hi⟩ := Function.ne_iff.1 hv
    have hz : ∀ i, ‖((|mu| : ℝ) : ℂ) * (-(norm2 v : ℂ)⁻¹ * v i) + A (fun i => (-(norm2 v : ℂ)⁻¹) * v i) i‖ = 0 := by
      intro i
      rw [hA', abs_of_neg hmu, norm_eq_zero]
      push_cast
      ring
    rw [Finset.sum_congr rfl fun i _ => hz i, Finset.sum_const_zero]
    refine Finset.sum_pos' (fun _ _ => norm_nonneg _) ⟨i, Finset.mem_univ i, ?_⟩
    rw [norm_pos_iff, hA', abs_of_neg hmu]
    have h1 : (mu : ℂ) ≠ 0 := by exact_mod_cast hmu.ne
    have h2 : (norm2 v : ℂ) ≠ 0 := by exact_mod_cast fun h => hv (norm2_eq_zero.1 h)
    have h3 : v i ≠ 0 := hi
    have : ((-mu : ℝ) : ℂ) * (-(norm2 v : ℂ)⁻¹ * v i) - mu * (-(norm2 v : ℂ)⁻¹ * v i)
        = 2 * mu * (norm2 v : ℂ)⁻¹ * v i := by push_cast; ring
    rw [this]
    exact mul_ne_zero (mul_ne_zero (mul_ne_zero two_ne_zero h1) (inv_ne_zero h2)) h3
  rw [(powerMethodLR_cases h).2 hf]
  have : powerMethod A (-|mu|) tol maxIt v = none := by
    have hw : norm2 (fun i => A v i - ((-|mu| : ℝ) : ℂ) * v i) = 0 := by
      rw [norm2_eq_zero]
      funext i
      rw [hA, abs_of_neg hmu]
      simp
    rw [powerMethod, iteration]
    dsimp only
    rw [if_pos hw]
  rw [this]
  rfl

/-- witnesses: `-1` on `ℂ^n`; no start vector works -/
theorem C62_minus_one_violated [Nonempty ι] (tol : ℝ) (ht : 0 ≤ tol) (maxIt : ℕ) (v : ι → ℂ) :
    powerMethodLR (fun w i => -w i) tol maxIt v = none := by
  by_cases hv : v = 0
  · subst hv
    have hw : norm2 (fun i : ι => -(0 : ι → ℂ) i - ((0 : ℝ) : ℂ) * (0 : ι → ℂ) i) = 0 := by
      rw [norm2_eq_zero]; funext i; simp
    rw [powerMethodLR, powerMethod, iteration]
    dsimp only
    rw [if_pos hw]
  · exact C62_negative_violated (mu := -1) (fun c v i => by ring) hv (fun i => by push_cast; ring) (by norm_num) ht maxIt

/-! ### A wrong eigenvalue -/

/-- the matrix `diag(-1, -2)` -/
def diagA (v : Fin 2 → ℂ) : Fin 2 → ℂ := ![-v 0, -2 * v 1]

theorem norm2_pair (a b : ℝ) : norm2 ![(a : ℂ), (b : ℂ)] = Real.sqrt (a ^ 2 + b ^ 2) := by
  rw [norm2, Fin.sum_univ_two]
  simp [Complex.norm_real]

theorem iteration_diag (offset a b p q m : ℝ) (hp : p = (-1 - offset) * a) (hq : q = (-2 - offset) * b)
    (hm : 0 < m) (hpq : p ^ 2 + q ^ 2 = m ^ 2) :
    iteration diagA offset ![(a : ℂ), (b : ℂ)]
      = some (m + offset, ![((p / m : ℝ) : ℂ), ((q / m : ℝ) : ℂ)]) := by
  have hw : (fun i => diagA ![(a : ℂ), (b : ℂ)] i - offset * (![(a : ℂ), (b : ℂ)] : Fin 2 → ℂ) i)
      = ![(p : ℂ), (q : ℂ)] := by
    funext i
    fin_cases i
    · simp [diagA, hp]; ring
    · simp [diagA, hq]; ring
  have hn : norm2 ![(p : ℂ), (q : ℂ)] = m := by rw [norm2_pair, hpq, Real.sqrt_sq hm.le]
  rw [iteration]
  dsimp only
  rw [hw, hn, if_neg hm.ne']
  congr 2
  funext i
  have h := congrFun hw i
  rw [h]
  fin_cases i <;> simp

theorem converged_pair_add {tol a b p q : ℝ} (h0 : |a + p| ≤ tol) (h1 : |b + q| ≤ tol) :
    converged tol ![(a : ℂ), (b : ℂ)] ![(p : ℂ), (q : ℂ)] := by
  left
  intro i
  fin_cases i
  · simp only [Fin.zero_eta, Matrix.cons_val_zero]
    rw [← Complex.ofReal_add, Complex.norm_real]; exact h0
  · simp only [Fin.mk_one, Matrix.cons_val_one, Matrix.cons_val_fin_one]
    rw [← Complex.ofReal_add, Complex.norm_real]; exact h1

theorem powerMethod_once {A : (ι → ℂ) → ι → ℂ} {offset tol norm0 norm : ℝ} {init v new : ι → ℂ}
    (h0 : iteration A offset init = some (norm0, v)) (h1 : iteration A offset v = some (norm, new))
    (hc : converged tol v new) (maxIt : ℕ) : powerMethod A offset tol maxIt init = some (norm, v, 1) := by
  rw [powerMethod, h0]
  dsimp only
  cases maxIt - 1 <;>
  · rw [powerLoop, h1]
    dsimp only
    rw [if_pos hc]

theorem second_stage {t c r : ℝ} (ht0 : 0 < t) (ht1 : t ≤ 1 / 16) (hc0 : 0 < c) (hc1 : c ≤ 1) (hr0 : 0 < r)
    (hr2 : r ≤ 3 / 2 * t ^ 2) :
    ∃ M al be K : ℝ, 0 < M ∧ (r * c) ^ 2 + (-(1 - r) * (t / 2)) ^ 2 = M ^ 2 ∧ al = r * c / M ∧
      -be = -(1 - r) * (t / 2) / M ∧ 0 < K ∧ (r * al) ^ 2 + ((1 - r) * be) ^ 2 = K ^ 2 ∧
      |al + r * al / K| ≤ 8 * t ∧ |-be + (1 - r) * be / K| ≤ 8 * t ∧ 1 / 2 ≤ (1 - r + K) * be := by
  have hrt : r ≤ t / 8 := by nlinarith
  have h1r : 0 < 1 - r := by linarith
  obtain ⟨M, hM0, hM⟩ : ∃ M : ℝ, 0 < M ∧ (r * c) ^ 2 + (-(1 - r) * (t / 2)) ^ 2 = M ^ 2 := by
    have hpos : 0 < (r * c) ^ 2 + (-(1 - r) * (t / 2)) ^ 2 := by positivity
    exact ⟨_, Real.sqrt_pos.2 hpos, (Real.sq_sqrt hpos.le).symm⟩
  obtain ⟨al, hal⟩ : ∃ al, al = r * c / M := ⟨_, rfl⟩
  obtain ⟨be, hbe⟩ : ∃ be, be = (1 - r) * (t / 2) / M := ⟨_, rfl⟩
  have hbe' : -be = -(1 - r) * (t / 2) / M := by rw [hbe]; ring
  have hal0 : 0 < al := by rw [hal]; positivity
  have hbe0 : 0 < be := by rw [hbe]; positivity
  have hab : al ^ 2 + be ^ 2 = 1 := by
    rw [hal, hbe, div_pow, div_pow, ← add_div, div_eq_one_iff_eq (by positivity), ← hM]
    ring
  have halbe : al ≤ 4 * t * be := by
    rw [hal, hbe]
    rw [show 4 * t * ((1 - r) * (t / 2) / M) = (2 * t ^ 2 * (1 - r)) / M by ring]
    refine div_le_div_of_nonneg_right ?_ hM0.le
    have h1 : r * c ≤ r := by nlinarith
    have h2 : t ^ 2 * (3 / 2) ≤ t ^ 2 * (2 * (1 - r)) := mul_le_mul_of_nonneg_left (by linarith) (by positivity)
    linarith
  have hbe1 : be ≤ 1 := by
    refine (abs_le_of_sq_le_sq' ?_ zero_le_one).2
    linarith [sq_nonneg al]
  have hal4 : al ≤ 4 * t := halbe.trans (mul_le_of_le_one_right (by linarith) hbe1)
  have hbesq : be ^ 2 ≤ be := by
    rw [sq]
    exact mul_le_of_le_one_left hbe0.le hbe1
  have halsq : al ^ 2 ≤ (4 * t) ^ 2 := pow_le_pow_left₀ hal0.le hal4 2
  have hbe2 : 1 - 16 * t ^ 2 ≤ be := by linarith
  have htsq : 16 * t ^ 2 ≤ t := by nlinarith
  obtain ⟨K, hK0, hK⟩ : ∃ K : ℝ, 0 < K ∧ (r * al) ^ 2 + ((1 - r) * be) ^ 2 = K ^ 2 := by
    have hpos : 0 < (r * al) ^ 2 + ((1 - r) * be) ^ 2 := by positivity
    exact ⟨_, Real.sqrt_pos.2 hpos, (Real.sq_sqrt hpos.le).symm⟩
  have hKge : (1 - r) * be ≤ K := by
    refine abs_le_of_sq_le_sq' ?_ hK0.le |>.2
    rw [← hK]
    linarith [sq_nonneg (r * al)]
  have hx : r * al / K ≤ 4 * t := by
    rw [div_le_iff₀ hK0]
    have h1 : r * al ≤ (1 - r) * (4 * t * be) := mul_le_mul (by linarith) halbe hal0.le h1r.le
    have h2 : 4 * t * ((1 - r) * be) ≤ 4 * t * K := mul_le_mul_of_nonneg_left hKge (by linarith)
    linarith
  have hx0 : 0 ≤ r * al / K := by positivity
  have hxy : (r * al / K) ^ 2 + ((1 - r) * be / K) ^ 2 = 1 := by
    rw [div_pow, div_pow, ← add_div, div_eq_one_iff_eq (by positivity), ← hK]
  have hy0 : 0 ≤ (1 - r) * be / K := by positivity
  obtain ⟨x, hxd⟩ : ∃ x, x = r * al / K := ⟨_, rfl⟩
  obtain ⟨y, hyd⟩ : ∃ y, y = (1 - r) * be / K := ⟨_, rfl⟩
  rw [← hxd] at hx hx0 hxy
  rw [← hyd] at hy0 hxy
  have hy1 : y ≤ 1 := by
    refine (abs_le_of_sq_le_sq' ?_ zero_le_one).2
    linarith [sq_nonneg x]
  have hysq : y ^ 2 ≤ y := by
    rw [sq]
    exact mul_le_of_le_one_left hy0 hy1
  have hxsq : x ^ 2 ≤ (4 * t) ^ 2 := pow_le_pow_left₀ hx0 hx 2
  refine ⟨M, al, be, K, hM0, hM, hal, hbe', hK0, hK, ?_, ?_, ?_⟩
  · rw [← hxd, abs_le]
    constructor <;> linarith
  · rw [← hyd, abs_le]
    constructor <;> linarith
  · have h1 : 15 / 16 ≤ be := by linarith
    have h2 : 15 / 16 ≤ 1 - r + K := by linarith
    nlinarith

/-- C62 is violated: for every tolerance there is a start vector for which the method returns, for the symmetric matrix
`diag(-1, -2)`, a number and a unit vector which are no eigenpair: the residual is at least `1/2`. -/
theorem C62_eigenpair_violated (tol : ℝ) (ht : 0 < tol) (maxIt : ℕ) :
    ∃ init lam v, powerMethodLR diagA tol maxIt init = some (lam, v, 2) ∧ 1 / 2 ≤ ‖diagA v 1 - lam * v 1‖ := by
  obtain ⟨t, ht0, ht1, ht2⟩ : ∃ t : ℝ, 0 < t ∧ t ≤ 1 / 16 ∧ 16 * t ≤ tol :=
    ⟨min tol 1 / 16, by positivity, by linarith [min_le_right tol 1], by linarith [min_le_left tol 1]⟩
  obtain ⟨c, hc0, hc1, hct⟩ : ∃ c : ℝ, 0 < c ∧ c ≤ 1 ∧ c ^ 2 + t ^ 2 = 1 := by
    have h1 : 0 < 1 - t ^ 2 := by nlinarith
    refine ⟨Real.sqrt (1 - t ^ 2), Real.sqrt_pos.2 h1, ?_, ?_⟩
    · rw [Real.sqrt_le_iff]; constructor <;> nlinarith
    · rw [Real.sq_sqrt h1.le]; ring
  -- first stage
  obtain ⟨N, hN0, hN⟩ : ∃ N : ℝ, 0 < N ∧ c ^ 2 + (2 * t) ^ 2 = N ^ 2 :=
    ⟨Real.sqrt (c ^ 2 + (2 * t) ^ 2), Real.sqrt_pos.2 (by positivity), (Real.sq_sqrt (by positivity)).symm⟩
  have hN1 : 1 ≤ N := by nlinarith
  have hN2 : N - 1 ≤ 3 / 2 * t ^ 2 := by nlinarith
  have hN1' : 1 < N := by nlinarith
  have i0 : iteration diagA 0 ![(c : ℂ), ((t / 2 : ℝ) : ℂ)] = some (1, ![((-c : ℝ) : ℂ), ((-t : ℝ) : ℂ)]) := by
    have := iteration_diag 0 c (t / 2) (-c) (-t) 1 (by ring) (by ring) one_pos (by nlinarith)
    simpa using this
  have i1 : iteration diagA 0 ![((-c : ℝ) : ℂ), ((-t : ℝ) : ℂ)]
      = some (N, ![((c / N : ℝ) : ℂ), ((2 * t / N : ℝ) : ℂ)]) := by
    have := iteration_diag 0 (-c) (-t) c (2 * t) N (by ring) (by ring) hN0 hN
    simpa using this
  have hcN : c / N ≤ c := div_le_self hc0.le hN1
  have hcN' : c - c / N ≤ tol := by
    have : c - c / N = c * ((N - 1) / N) := by field_simp
    rw [this]
    have h1 : (N - 1) / N ≤ N - 1 := div_le_self (by linarith) hN1
    have h2 : 0 ≤ (N - 1) / N := div_nonneg (by linarith) hN0.le
    nlinarith
  have htN : 2 * t / N ≤ 2 * t := div_le_self (by linarith) hN1
  have htN0 : 0 ≤ 2 * t / N := by positivity
  have s1 := powerMethod_once (tol := tol) i0 i1
    (converged_pair_add (by rw [abs_le]; constructor <;> linarith) (by rw [abs_le]; constructor <;> linarith)) maxIt
  -- sign test
  have hA0 : diagA ![((-c : ℝ) : ℂ), ((-t : ℝ) : ℂ)] = ![(c : ℂ), ((2 * t : ℝ) : ℂ)] := by
    funext i; fin_cases i <;> simp [diagA]
  have hf : ¬ Forward diagA ![((-c : ℝ) : ℂ), ((-t : ℝ) : ℂ)] := by
    rw [Forward, hA0, norm2_pair, hN, Real.sqrt_sq hN0.le, not_le, Fin.sum_univ_two, Fin.sum_univ_two]
    simp only [Matrix.cons_val_zero, Matrix.cons_val_one, Matrix.cons_val_fin_one]
    rw [← Complex.ofReal_mul, ← Complex.ofReal_mul, ← Complex.ofReal_add, ← Complex.ofReal_add,
      ← Complex.ofReal_sub, ← Complex.ofReal_sub, Complex.norm_real, Complex.norm_real, Complex.norm_real,
      Complex.norm_real, Real.norm_eq_abs, Real.norm_eq_abs, Real.norm_eq_abs, Real.norm_eq_abs]
    have e1 : |N * -c - c| = N * c + c := by rw [abs_of_neg (by nlinarith)]; ring
    have e2 : |N * -t - 2 * t| = N * t + 2 * t := by rw [abs_of_neg (by nlinarith)]; ring
    have e3 : |N * -c + c| ≤ N * c - c := by rw [abs_le]; constructor <;> nlinarith
    have e4 : |N * -t + 2 * t| ≤ 2 * t := by rw [abs_le]; constructor <;> nlinarith
    rw [e1, e2]
    nlinarith
  -- second stage
  set r := N - 1 with hr
  have hr0 : 0 < r := by linarith
  have hrt : r ≤ t / 8 := by nlinarith
  obtain ⟨M, al, be, K, hM0, hM, hal, hbe', hK0, hK, hadd, hadd', hbound⟩ := second_stage ht0 ht1 hc0 hc1 hr0 hN2
  have j0 := iteration_diag (-N) c (t / 2) (r * c) (-(1 - r) * (t / 2)) M (by rw [hr]; ring) (by rw [hr]; ring) hM0 hM
  rw [← hal, ← hbe'] at j0
  have j1 := iteration_diag (-N) al (-be) (r * al) ((1 - r) * be) K (by rw [hr]; ring) (by rw [hr]; ring) hK0 hK
  have s2 := powerMethod_once (tol := tol) j0 j1
    (converged_pair_add (hadd.trans (by linarith)) (hadd'.trans (by linarith))) maxIt
  refine ⟨![(c : ℂ), ((t / 2 : ℝ) : ℂ)], K + -N, ![(al : ℂ), ((-be : ℝ) : ℂ)], ?_, ?_⟩
  · rw [(powerMethodLR_cases s1).2 hf, s2]
    rfl
  · have : diagA ![(al : ℂ), ((-be : ℝ) : ℂ)] 1 - ((K + -N : ℝ) : ℂ) * (![(al : ℂ), ((-be : ℝ) : ℂ)] : Fin 2 → ℂ) 1
        = (((2 + K - N) * be : ℝ) : ℂ) := by
      simp [diagA]
      ring
    rw [this, Complex.norm_real, Real.norm_eq_abs]
    refine le_trans ?_ (le_abs_self _)
    have : (2 + K - N) * be = (1 - r + K) * be := by rw [hr]; ring
    rw [this]
    exact hbound

/-- concrete case of the positive results: the swap of two components, started from `(1, 1)` -/
example : powerMethodLR (fun (v : Fin 2 → ℂ) => ![v 1, v 0]) 0 1 ![1, 1]
    = some (1, fun i => (![1, 1] : Fin 2 → ℂ) i / norm2 ![1, 1], 1) :=
  C62_eigenvector_start
    (fun c v i => by fin_cases i <;> simp)
    (fun h => one_ne_zero (congrFun h 0))
    (fun i => by fin_cases i <;> simp) one_pos le_rfl 1

end Verif.Eliashberg
