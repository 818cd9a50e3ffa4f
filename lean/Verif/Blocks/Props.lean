import Verif.Blocks.Model
import Mathlib.Algebra.Order.Chebyshev
import Mathlib.Analysis.InnerProductSpace.Basic
import Mathlib.Tactic.FinCases

/-!
# C137: data of block Green's functions and the Legendre filter
-/

noncomputable section

namespace Verif.Blocks

variable {d : ℕ}

/-- indices inside a shape -/
def Inside (shape idx : Fin d → ℕ) : Prop := ∀ i, idx i < shape i

theorem fill_ok {shape : Fin d → ℕ} {G : List (Data d)} {rows : List ((Fin d → ℕ) → ℂ)} (h : fill shape G = .ok rows) :
    List.Forall₂ (fun g row => broadcast shape g = .ok row) G rows := by
  induction G generalizing rows with
  | nil =>
    cases h
    exact List.Forall₂.nil
  | cons g gs ih =>
    unfold fill at h
    split at h
    · cases h
    · next row hb =>
      split at h
      · cases h
      · next rows' hf =>
        cases h
        exact List.Forall₂.cons hb (ih hf)

theorem fill_of {shape : Fin d → ℕ} {G : List (Data d)} (h : ∀ g ∈ G, ∃ row, broadcast shape g = .ok row) :
    ∃ rows, fill shape G = .ok rows := by
  induction G with
  | nil => exact ⟨[], rfl⟩
  | cons g gs ih =>
    obtain ⟨row, hr⟩ := h g List.mem_cons_self
    obtain ⟨rows, hf⟩ := ih fun g' hg' => h g' (List.mem_cons_of_mem _ hg')
    refine ⟨row :: rows, ?_⟩
    unfold fill
    rw [hr, hf]

theorem data_ok {G : List (Data d)} {shape : Fin d → ℕ} {rows : List ((Fin d → ℕ) → ℂ)} (h : blockGfData G = .ok (shape, rows)) :
    fill shape G = .ok rows := by
  unfold blockGfData at h
  split at h
  · cases h
  · next g gs =>
    split at h
    · cases h
    · next rows' hf =>
      rw [Except.ok.injEq, Prod.mk.injEq] at h
      rw [← h.1, ← h.2]
      exact hf

/-- C137: if all blocks have the same shape, the array has one row for each block with all of its elements. Missing: blocks of different
shape (`C137_data_violated`). -/
theorem C137_data_partial (g : Data d) (gs : List (Data d)) (h : ∀ g' ∈ gs, g'.shape = g.shape) :
    ∃ rows, blockGfData (g :: gs) = .ok (g.shape, rows) ∧
      List.Forall₂ (fun (g' : Data d) row => ∀ idx, Inside g.shape idx → row idx = g'.val idx) (g :: gs) rows := by
  have h' : ∀ g' ∈ g :: gs, g'.shape = g.shape := by
    intro g' hg
    rcases List.mem_cons.1 hg with rfl | hg
    · rfl
    · exact h g' hg
  have hb : ∀ g' ∈ g :: gs, broadcast g.shape g' = .ok fun idx => g'.val fun i => if g'.shape i = 1 then 0 else idx i := by
    intro g' hg
    unfold broadcast
    rw [if_pos fun i => Or.inl (congrFun (h' g' hg) i)]
  obtain ⟨rows, hf⟩ := fill_of fun g' hg => ⟨_, hb g' hg⟩
  refine ⟨rows, ?_, ?_⟩
  · unfold blockGfData
    dsimp only
    rw [hf]
  · have key : ∀ (G : List (Data d)) (rows : List ((Fin d → ℕ) → ℂ)), (∀ g' ∈ G, g' ∈ g :: gs) →
        List.Forall₂ (fun g' row => broadcast g.shape g' = .ok row) G rows →
        List.Forall₂ (fun (g' : Data d) row => ∀ idx, Inside g.shape idx → row idx = g'.val idx) G rows := by
      intro G rows hm hF
      induction hF with
      | nil => exact List.Forall₂.nil
      | @cons a b l1 l2 hab _ ih =>
        refine List.Forall₂.cons ?_ (ih fun g' hg => hm g' (List.mem_cons_of_mem _ hg))
        intro idx hi
        have ha := hm a List.mem_cons_self
        rw [hb a ha, Except.ok.injEq] at hab
        rw [← hab]
        dsimp only
        congr 1
        funext i
        by_cases h1 : a.shape i = 1
        · rw [if_pos h1]
          have := hi i
          rw [← h' a ha, h1] at this
          omega
        · rw [if_neg h1]
    exact key _ _ (fun _ h => h) (fill_ok hf)

/-- C137: whenever an array is returned, its elements are exactly the elements of the blocks, so that the largest difference of two block
functions is found also if axes are repeated. -/
theorem C137_elements (G : List (Data d)) (shape : Fin d → ℕ) (rows : List ((Fin d → ℕ) → ℂ))
    (h : blockGfData G = .ok (shape, rows)) (hpos : ∀ i, 0 < shape i) :
    List.Forall₂ (fun (g : Data d) row =>
      (∀ idx, Inside shape idx → ∃ idx', Inside g.shape idx' ∧ row idx = g.val idx') ∧
      ∀ idx, Inside g.shape idx → ∃ idx', Inside shape idx' ∧ row idx' = g.val idx) G rows := by
  refine (fill_ok (data_ok h)).imp ?_
  intro g row hb
  unfold broadcast at hb
  split at hb
  · next hs =>
    rw [Except.ok.injEq] at hb
    constructor
    · intro idx hi
      refine ⟨fun i => if g.shape i = 1 then 0 else idx i, ?_, by rw [← hb]⟩
      intro i
      by_cases h1 : g.shape i = 1
      · simp only [h1, if_true]
        exact one_pos
      · simp only [h1, if_false]
        rw [(hs i).resolve_right h1]
        exact hi i
    · intro idx hi
      have hle : Inside shape idx := by
        intro i
        rcases hs i with e | e
        · rw [← e]
          exact hi i
        · have := hi i
          rw [e] at this
          have := hpos i
          omega
      refine ⟨idx, hle, ?_⟩
      rw [← hb]
      dsimp only
      congr 1
      funext i
      by_cases h1 : g.shape i = 1
      · rw [if_pos h1]
        have := hi i
        rw [h1] at this
        omega
      · rw [if_neg h1]
  · cases hb

/-- C137: a block of a shape that numpy cannot repeat is refused, and so is a function without blocks. -/
theorem C137_data_refused (g : Data d) (gs : List (Data d)) (g' : Data d) (hg : g' ∈ gs) (i : Fin d) (h1 : g'.shape i ≠ g.shape i)
    (h2 : g'.shape i ≠ 1) : (∃ e, blockGfData (g :: gs) = .error e) ∧ ∃ e, blockGfData ([] : List (Data d)) = .error e := by
  refine ⟨?_, _, rfl⟩
  cases h : blockGfData (g :: gs) with
  | error e => exact ⟨e, rfl⟩
  | ok x =>
    exfalso
    obtain ⟨shape, rows⟩ := x
    have hs : shape = g.shape := by
      unfold blockGfData at h
      dsimp only at h
      split at h
      · cases h
      · rw [Except.ok.injEq, Prod.mk.injEq] at h
        exact h.1.symm
    have hF := fill_ok (data_ok h)
    have key : ∀ (G : List (Data d)) (rows : List ((Fin d → ℕ) → ℂ)), List.Forall₂ (fun g' row => broadcast shape g' = .ok row) G rows →
        ∀ g' ∈ G, ∃ row, broadcast shape g' = .ok row := by
      intro G rows hF
      induction hF with
      | nil => intro g' hg; cases hg
      | cons hab _ ih =>
        intro g' hg
        rcases List.mem_cons.1 hg with rfl | hg
        · exact ⟨_, hab⟩
        · exact ih g' hg
    obtain ⟨row, hr⟩ := key _ _ hF g' (List.mem_cons_of_mem _ hg)
    unfold broadcast at hr
    rw [if_neg] at hr
    · cases hr
    · intro hall
      rcases hall i with e | e
      · exact h1 (by rw [e, hs])
      · exact h2 e

/-- a matrix of `n` orbitals at one frequency, with all elements `x` -/
def square (n : ℕ) (x : ℂ) : Data 3 := ⟨![1, n, n], fun _ => x⟩

/-- C137 violated: a block with one orbital after a block with two is accepted, and its number is written to all four elements; in the other
order the function raises an exception. -/
theorem C137_data_violated (x y : ℂ) :
    (∃ rows, blockGfData [square 2 x, square 1 y] = .ok (![1, 2, 2], rows) ∧
      ∃ row, rows[1]? = some row ∧ row ![0, 0, 1] = y) ∧
    ∃ e, blockGfData [square 1 y, square 2 x] = .error e := by
  constructor
  · have hb : ∀ g ∈ [square 2 x, square 1 y], ∃ row, broadcast ![1, 2, 2] g = .ok row := by
      intro g hg
      refine ⟨_, if_pos ?_⟩
      intro i
      rw [List.mem_cons, List.mem_singleton] at hg
      rcases hg with rfl | rfl <;> fin_cases i <;> simp [square]
    obtain ⟨rows, hf⟩ := fill_of hb
    have hF := fill_ok hf
    refine ⟨rows, ?_, ?_⟩
    · unfold blockGfData
      dsimp only
      rw [show fill (square 2 x).shape [square 2 x, square 1 y] = .ok rows from hf]
      rfl
    · cases hF with
      | cons _ h2 =>
        cases h2 with
        | cons h3 _ =>
          refine ⟨_, rfl, ?_⟩
          unfold broadcast at h3
          split at h3
          · rw [Except.ok.injEq] at h3
            rw [← h3]
            rfl
          · cases h3
  · refine (C137_data_refused (square 1 y) [square 2 x] (square 2 x) (List.mem_singleton.2 rfl) 1 ?_ ?_).1
    · simp [square]
    · simp [square]

/-! ## Legendre filter -/

variable {L : ℕ}

theorem jump_add (t : Fin L → ℝ) (g h : Fin L → ℂ) : jump t (fun l => g l + h l) = jump t g + jump t h := by
  unfold jump
  rw [← Finset.sum_add_distrib]
  refine Finset.sum_congr rfl fun l _ => by ring

theorem jump_correction {t : Fin L → ℝ} (ht : ∑ k, t k ^ 2 ≠ 0) (x : ℂ) : jump t (fun l => x * (t l : ℂ) / ((∑ k, t k ^ 2 : ℝ) : ℂ)) = x := by
  unfold jump
  have h0 : ((∑ k, t k ^ 2 : ℝ) : ℂ) ≠ 0 := by exact_mod_cast ht
  have e : ∀ l, (t l : ℂ) * (x * (t l : ℂ) / ((∑ k, t k ^ 2 : ℝ) : ℂ)) = x / ((∑ k, t k ^ 2 : ℝ) : ℂ) * ((t l ^ 2 : ℝ) : ℂ) := by
    intro l
    push_cast
    ring
  rw [Finset.sum_congr rfl fun l _ => e l, ← Finset.mul_sum, ← Complex.ofReal_sum, div_mul_cancel₀ _ h0]

/-- C137: every function returned by `legendre_filter` has the jump of a fermionic Green's function, whatever the fit and the cutoff are. -/
theorem C137_jump {B : Type} (fit : B → Fin L → ℂ) (t : Fin L → ℝ) (ht : ∑ k, t k ^ 2 ≠ 0) (cut : ℝ) (G : List B) :
    ∀ g ∈ legendreFilter fit t cut G, jump t g = 1 := by
  intro g hg
  unfold legendreFilter at hg
  rw [List.mem_map] at hg
  obtain ⟨b, -, rfl⟩ := hg
  unfold enforceDiscontinuity
  rw [jump_add, jump_correction ht]
  ring

/-- C137: among all coefficients with this jump the filter returns those nearest to the fitted coefficients after the cutoff. -/
theorem C137_nearest {B : Type} (fit : B → Fin L → ℂ) (t : Fin L → ℝ) (ht : ∑ k, t k ^ 2 ≠ 0) (cut : ℝ) (G : List B) :
    List.Forall₂ (fun b g => ∀ h : Fin L → ℂ, jump t h = 1 →
      ∑ l, ‖g l - (if cut < ‖fit b l‖ then fit b l else 0)‖ ^ 2 ≤ ∑ l, ‖h l - (if cut < ‖fit b l‖ then fit b l else 0)‖ ^ 2)
      G (legendreFilter fit t cut G) := by
  unfold legendreFilter
  rw [List.forall₂_map_right_iff, List.forall₂_same]
  intro b _ h hh
  set m : Fin L → ℂ := cutOff cut (fit b) with hm
  have em : ∀ l, (if cut < ‖fit b l‖ then fit b l else 0) = m l := fun l => rfl
  simp only [em]
  have hpos : 0 < ∑ k, t k ^ 2 := lt_of_le_of_ne (Finset.sum_nonneg fun k _ => sq_nonneg _) (Ne.symm ht)
  have e1 : ∑ l, ‖enforceDiscontinuity t m l - m l‖ ^ 2 = ‖1 - jump t m‖ ^ 2 / ∑ k, t k ^ 2 := by
    have : ∀ l, ‖enforceDiscontinuity t m l - m l‖ ^ 2 = ‖1 - jump t m‖ ^ 2 / (∑ k, t k ^ 2) ^ 2 * t l ^ 2 := by
      intro l
      unfold enforceDiscontinuity
      rw [add_sub_cancel_left, norm_div, norm_mul, Complex.norm_real, Complex.norm_real, Real.norm_eq_abs, Real.norm_eq_abs,
        abs_of_pos hpos, div_pow, mul_pow, sq_abs]
      ring
    rw [Finset.sum_congr rfl fun l _ => this l, ← Finset.mul_sum]
    field_simp
  rw [e1, div_le_iff₀ hpos]
  have e2 : 1 - jump t m = ∑ l, (t l : ℂ) * (h l - m l) := by
    rw [← hh]
    unfold jump
    rw [← Finset.sum_sub_distrib]
    refine Finset.sum_congr rfl fun l _ => by ring
  have h1 : ‖1 - jump t m‖ ≤ ∑ l, |t l| * ‖h l - m l‖ := by
    rw [e2]
    refine (norm_sum_le _ _).trans (le_of_eq (Finset.sum_congr rfl fun l _ => ?_))
    rw [norm_mul, Complex.norm_real, Real.norm_eq_abs]
  have h2 : (∑ l, |t l| * ‖h l - m l‖) ^ 2 ≤ (∑ l, |t l| ^ 2) * ∑ l, ‖h l - m l‖ ^ 2 := Finset.sum_mul_sq_le_sq_mul_sq _ _ _
  simp only [sq_abs] at h2
  calc ‖1 - jump t m‖ ^ 2 ≤ (∑ l, |t l| * ‖h l - m l‖) ^ 2 := pow_le_pow_left₀ (norm_nonneg _) h1 2
    _ ≤ _ := by rw [mul_comm]; exact h2

/-- C137 violated: the cutoff does not hold in the result. Every coefficient below it that enters the jump is different from zero again,
unless the jump was right before. -/
theorem C137_cut_violated {B : Type} (fit : B → Fin L → ℂ) (t : Fin L → ℝ) (cut : ℝ) (b : B) (l : Fin L) (hl : t l ≠ 0)
    (hc : ‖fit b l‖ ≤ cut) (hj : jump t (cutOff cut (fit b)) ≠ 1) :
    ∃ g, legendreFilter fit t cut [b] = [g] ∧ g l ≠ 0 := by
  refine ⟨_, rfl, ?_⟩
  have h0 : cutOff cut (fit b) l = 0 := if_neg (not_lt.2 hc)
  unfold enforceDiscontinuity
  dsimp only
  rw [h0, zero_add]
  have hpos : (∑ k, t k ^ 2) ≠ 0 := by
    refine ne_of_gt (Finset.sum_pos' (fun k _ => sq_nonneg _) ⟨l, Finset.mem_univ l, ?_⟩)
    positivity
  refine div_ne_zero (mul_ne_zero (sub_ne_zero.2 (Ne.symm hj)) ?_) ?_
  · exact_mod_cast hl
  · exact_mod_cast hpos

/-! ## Cases that meet the hypotheses -/

/-- `C137_data_partial` -/
example (x y : ℂ) : ∀ g' ∈ [square 2 y], g'.shape = (square 2 x).shape := by
  intro g' hg
  rw [List.mem_singleton] at hg
  rw [hg]
  rfl

/-- `C137_jump`, `C137_nearest`, `C137_cut_violated`: two coefficients 1/2 and 1/10, both of weight one, cutoff 1/5 -/
example : (∑ _k : Fin 2, (1 : ℝ) ^ 2 ≠ 0) ∧ ‖(![1 / 2, 1 / 10] : Fin 2 → ℂ) 1‖ ≤ 1 / 5 ∧
    jump (fun _ => 1) (cutOff (1 / 5) (![1 / 2, 1 / 10] : Fin 2 → ℂ)) ≠ 1 := by
  refine ⟨by norm_num, by norm_num, ?_⟩
  have e : jump (fun _ => 1) (cutOff (1 / 5) (![1 / 2, 1 / 10] : Fin 2 → ℂ)) = 1 / 2 := by
    unfold jump cutOff
    rw [Fin.sum_univ_two]
    simp
    norm_num
  rw [e]
  norm_num

end Verif.Blocks
