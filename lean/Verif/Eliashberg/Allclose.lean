import Verif.Eliashberg.Model
import Mathlib.Tactic.Linarith
import Mathlib.Tactic.Positivity
import Mathlib.Tactic.FieldSimp
import Mathlib.Tactic.Ring
import Mathlib.Tactic.NormNum
import Mathlib.Analysis.Complex.Basic

/-!
C63: comparison of two gaps up to a scalar, `allclose_by_scalar_multiplication`.
-/

set_option linter.unusedSectionVars false

noncomputable section

namespace Verif.Eliashberg

/-- no entry is treated as a numerical zero -/
def Dense (x : List ℂ) : Prop := ∀ z ∈ x, 1e-7 < ‖z‖

theorem nonZeros_dense {x : List ℂ} (h : Dense x) : nonZeros x = x := by
  rw [nonZeros, List.filter_eq_self]
  intro z hz
  exact decide_eq_true (h z hz)

theorem nonZeros_small {x : List ℂ} (h : ∀ z ∈ x, ‖z‖ ≤ 1e-7) : nonZeros x = [] := by
  rw [nonZeros, List.filter_eq_nil_iff]
  intro z hz
  simpa using h z hz

theorem dense_ne {x : List ℂ} (h : Dense x) {z : ℂ} (hz : z ∈ x) : z ≠ 0 := by
  rintro rfl
  have := h 0 hz
  norm_num at this

theorem divide_same {x y : List ℂ} (h : x.length = y.length) : divide x y = some (List.zipWith (· / ·) x y) := by
  unfold divide
  rw [if_pos h]

theorem zip_self_mem : ∀ (x : List ℂ) {p : ℂ × ℂ}, p ∈ x.zip x → p.1 = p.2
  | [], _, h => by simp at h
  | a :: x, p, h => by
    rw [List.zip_cons_cons, List.mem_cons] at h
    rcases h with rfl | h
    · rfl
    · exact zip_self_mem x h

theorem zipWith_forall (P : ℂ → Prop) : ∀ (x y : List ℂ), x.length = y.length →
    ((∀ z ∈ List.zipWith (· / ·) x y, P z) ↔ ∀ p ∈ x.zip y, P (p.1 / p.2))
  | [], [], _ => by simp
  | a :: x, b :: y, h => by
    have := zipWith_forall P x y (by simpa using h)
    simp only [List.zipWith_cons_cons, List.zip_cons_cons, List.mem_cons, forall_eq_or_imp, this]
  | [], _ :: _, h => by simp at h
  | _ :: _, [], h => by simp at h

/-- C63 (arrays of the same length without small entries): the result is true exactly if all elements agree with the
multiple given by the first elements, with relative accuracy `atol / |s| + 1e-5`. -/
theorem C63_dense_partial (atol : ℝ) (a b : ℂ) (x y : List ℂ) (hx : Dense (a :: x)) (hy : Dense (b :: y))
    (hl : x.length = y.length) :
    ∃ r, allcloseScalar atol (a :: x) (b :: y) = .ret r ∧
      (r = true ↔ ∀ p ∈ (a :: x).zip (b :: y), ‖p.1 - a / b * p.2‖ ≤ (atol + 1e-5 * ‖a / b‖) * ‖p.2‖) := by
  classical
  rw [allcloseScalar, nonZeros_dense hx, nonZeros_dense hy, divide_same (by simp [hl])]
  simp only [List.zipWith_cons_cons]
  refine ⟨_, rfl, ?_⟩
  rw [decide_eq_true_iff]
  have := zipWith_forall (fun z => ‖z - a / b‖ ≤ atol + 1e-5 * ‖a / b‖) (a :: x) (b :: y) (by simp [hl])
  simp only [List.zipWith_cons_cons] at this
  rw [this]
  refine forall_congr' fun p => ?_
  refine forall_congr' fun hp => ?_
  have hp2 : p.2 ≠ 0 := dense_ne hy (List.of_mem_zip hp).2
  have hpos : 0 < ‖p.2‖ := norm_pos_iff.2 hp2
  have e : p.1 / p.2 - a / b = (p.1 - a / b * p.2) / p.2 := by
    rw [sub_div, mul_div_assoc, div_self hp2, mul_one]
  rw [e, norm_div, div_le_iff₀ hpos]

/-- C63: exact multiples are accepted, as long as no element is treated as a numerical zero. -/
theorem C63_multiple_partial (atol : ℝ) (hatol : 0 ≤ atol) (s : ℂ) (y : List ℂ) (hne : y ≠ []) (hy : Dense y)
    (hx : Dense (y.map (s * ·))) : allcloseScalar atol (y.map (s * ·)) y = .ret true := by
  cases y with
  | nil => exact absurd rfl hne
  | cons b y =>
    obtain ⟨r, hr, hiff⟩ := C63_dense_partial atol (s * b) b (y.map (s * ·)) y (by simpa using hx) hy (by simp)
    rw [List.map_cons, hr]
    congr 1
    rw [hiff]
    have hb : b ≠ 0 := dense_ne hy (by simp)
    rw [mul_div_assoc, div_self hb, mul_one]
    intro p hp
    have : p.1 = s * p.2 := by
      rw [← List.map_cons (f := (s * ·)), List.zip_map_left] at hp
      obtain ⟨z, hz, rfl⟩ := List.mem_map.1 hp
      have : z.1 = z.2 := by
        exact zip_self_mem _ hz
      simp [this]
    rw [this, sub_self, norm_zero]
    positivity

/-- C63 is violated (false positive): the positions of the elements are lost when zeros are removed; `(1, 0)` and
`(0, 1)` are accepted although neither is a multiple of the other. -/
theorem C63_position_violated (atol : ℝ) (hatol : 0 ≤ atol) : allcloseScalar atol [1, 0] [0, 1] = .ret true ∧
    ¬ ∃ s : ℂ, [1, 0] = [0, 1].map (s * ·) := by
  classical
  constructor
  · have h1 : nonZeros [1, 0] = [1] := by simp [nonZeros]; norm_num
    have h2 : nonZeros [0, 1] = [1] := by simp [nonZeros]; norm_num
    rw [allcloseScalar, h1, h2]
    simp [divide]
    positivity
  · rintro ⟨s, h⟩
    simp at h

/-- C63 is violated (false positive by broadcasting): an array with one non-zero element is compared with every element
of the other one. -/
theorem C63_broadcast_violated (atol : ℝ) (hatol : 0 ≤ atol) : allcloseScalar atol [1, 0] [1, 1] = .ret true ∧
    (¬ ∃ s : ℂ, [1, 0] = [1, 1].map (s * ·)) ∧ ¬ ∃ s : ℂ, [1, 1] = [1, 0].map (s * ·) := by
  classical
  refine ⟨?_, ?_, ?_⟩
  · have h1 : nonZeros [1, 0] = [1] := by simp [nonZeros]; norm_num
    have h2 : nonZeros [1, 1] = [1, 1] := by simp [nonZeros]; norm_num
    rw [allcloseScalar, h1, h2]
    simp [divide]
    positivity
  · rintro ⟨s, h⟩
    simp only [List.map_cons, List.map_nil, mul_one, List.cons.injEq, and_true] at h
    rw [← h.1] at h
    exact zero_ne_one h.2
  · rintro ⟨s, h⟩
    simp at h

/-- C63 is violated (false negative): the small element of the scaled array is treated as zero. -/
theorem C63_scaling_violated (atol : ℝ) (hatol : atol ≤ 1) :
    allcloseScalar atol [1, 1e-2] ([1, 1e-2].map ((1e-5 : ℂ) * ·)) = .ret false := by
  classical
  have h1 : nonZeros [1, 1e-2] = [1, 1e-2] := by
    apply nonZeros_dense
    intro z hz
    simp only [List.mem_cons, List.not_mem_nil, or_false] at hz
    rcases hz with rfl | rfl <;> norm_num
  have h2 : nonZeros ([1, 1e-2].map ((1e-5 : ℂ) * ·)) = [1e-5] := by
    have e : ((1e-5 : ℂ) * 1e-2) = 1e-7 := by norm_num
    simp only [nonZeros, List.map_cons, List.map_nil, mul_one, e]
    rw [List.filter_cons_of_pos (by norm_num), List.filter_cons_of_neg (by norm_num), List.filter_nil]
  rw [allcloseScalar, h1, h2]
  simp only [divide, List.length_cons, List.length_nil, List.map_cons, List.map_nil]
  simp only [Nat.reduceAdd, OfNat.ofNat_ne_one, if_false]
  congr 1
  rw [decide_eq_false_iff_not]
  intro h
  have := h _ (List.mem_cons_of_mem _ (List.mem_singleton_self _))
  rw [show (1e-2 / 1e-5 - 1 / 1e-5 : ℂ) = ((-99000 : ℝ) : ℂ) by push_cast; norm_num,
    show (1 / 1e-5 : ℂ) = ((100000 : ℝ) : ℂ) by push_cast; norm_num, Complex.norm_real, Complex.norm_real] at this
  norm_num at this
  linarith

/-- C63 is violated (exception): arrays whose elements are all treated as zeros raise an `IndexError`. -/
theorem C63_zero_violated (atol : ℝ) (x y : List ℂ) (hx : ∀ z ∈ x, ‖z‖ ≤ 1e-7) (hy : ∀ z ∈ y, ‖z‖ ≤ 1e-7) :
    allcloseScalar atol x y = .indexError := by
  rw [allcloseScalar, nonZeros_small hx, nonZeros_small hy]
  rfl

/-- C63: different numbers of non-zero elements (both larger than one) are refused. -/
theorem C63_count (atol : ℝ) (x y : List ℂ) (hx : 1 < (nonZeros x).length) (hy : 1 < (nonZeros y).length)
    (h : (nonZeros x).length ≠ (nonZeros y).length) : allcloseScalar atol x y = .ret false := by
  rw [allcloseScalar]
  generalize nonZeros x = u at *
  generalize nonZeros y = v at *
  have : divide u v = none := by
    unfold divide
    rw [if_neg h]
    match u, v, hx, hy with
    | _ :: _ :: _, _ :: _ :: _, _, _ => rfl
    | [], _, hx, _ => simp at hx
    | [_], _, hx, _ => simp at hx
    | _ :: _ :: _, [], _, hy => simp at hy
    | _ :: _ :: _, [_], _, hy => simp at hy
  rw [this]

/-- C63: the requested tolerance is not the one used; with any `atol ≥ 0` the arrays `(1, 1 + 1e-6)` and `(1, 1)` are
accepted, because the relative tolerance of `np.allclose` keeps its default. -/
theorem C63_tolerance_violated (atol : ℝ) (hatol : 0 ≤ atol) :
    allcloseScalar atol [1, 1 + 1e-6] [1, 1] = .ret true := by
  obtain ⟨r, hr, hiff⟩ := C63_dense_partial atol 1 1 [1 + 1e-6] [1]
    (by intro z hz
        simp only [List.mem_cons, List.not_mem_nil, or_false] at hz
        rcases hz with rfl | rfl
        · norm_num
        · rw [show (1 + 1e-6 : ℂ) = ((1 + 1e-6 : ℝ) : ℂ) by push_cast; norm_num, Complex.norm_real]
          norm_num)
    (by intro z hz
        simp only [List.mem_cons, List.not_mem_nil, or_false, or_self] at hz
        subst hz
        norm_num) rfl
  rw [hr]
  congr 1
  rw [hiff]
  intro p hp
  simp only [List.zip_cons_cons, List.zip_nil_right, List.mem_cons, List.not_mem_nil, or_false] at hp
  rcases hp with rfl | rfl
  · norm_num; linarith
  · norm_num; linarith

/-- concrete case: complex multiples of an array with two elements -/
example : allcloseScalar 0 ([1, 2].map (Complex.I * ·)) [1, 2] = .ret true :=
  C63_multiple_partial 0 le_rfl Complex.I [1, 2] (by simp)
    (by intro z hz; simp at hz; rcases hz with rfl | rfl <;> norm_num)
    (by intro z hz; simp at hz; rcases hz with rfl | rfl <;> simp <;> norm_num)

end Verif.Eliashberg
