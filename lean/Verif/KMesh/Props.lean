import Verif.KMesh.Model
import Mathlib.Tactic.FieldSimp
import Mathlib.Tactic.Linarith
import Mathlib.Algebra.BigOperators.Fin
import Mathlib.Data.Real.Basic

/-!
# C93: momenta, indices and interpolation
-/

noncomputable section

set_option linter.unusedSectionVars false

namespace Verif.KMesh

open Matrix

theorem unravel_ravel (nk i : Fin 3 → ℕ) (h : ∀ a, i a < nk a) : unravel nk (ravel nk i) = i := by
  have h1 := h 1
  have h2 := h 2
  have e1 : ((i 0 * nk 1 + i 1) * nk 2 + i 2) / nk 2 = i 0 * nk 1 + i 1 := by
    rw [add_comm, Nat.add_mul_div_right _ _ (by omega), Nat.div_eq_of_lt h2, zero_add]
  funext a
  fin_cases a
  · change ((i 0 * nk 1 + i 1) * nk 2 + i 2) / nk 2 / nk 1 = i 0
    rw [e1, add_comm, Nat.add_mul_div_right _ _ (by omega), Nat.div_eq_of_lt h1, zero_add]
  · change ((i 0 * nk 1 + i 1) * nk 2 + i 2) / nk 2 % nk 1 = i 1
    rw [e1, add_comm, Nat.add_mul_mod_self_right, Nat.mod_eq_of_lt h1]
  · change ((i 0 * nk 1 + i 1) * nk 2 + i 2) % nk 2 = i 2
    rw [add_comm, Nat.add_mul_mod_self_right, Nat.mod_eq_of_lt h2]

theorem ravel_lt (nk i : Fin 3 → ℕ) (h : ∀ a, i a < nk a) : ravel nk i < prod3 nk := by
  have h0 := h 0
  have h1 := h 1
  have h2 := h 2
  unfold ravel prod3
  have e1 : i 0 * nk 1 + i 1 + 1 ≤ nk 0 * nk 1 := by nlinarith
  nlinarith

theorem ravel_unravel (nk : Fin 3 → ℕ) (p : ℕ) : ravel nk (unravel nk p) = p := by
  change (p / nk 2 / nk 1 * nk 1 + p / nk 2 % nk 1) * nk 2 + p % nk 2 = p
  rw [Nat.div_add_mod', Nat.div_add_mod']

theorem unravel_lt (nk : Fin 3 → ℕ) (p : ℕ) (hp : p < prod3 nk) (a : Fin 3) : unravel nk p a < nk a := by
  have hpos : 0 < prod3 nk := by omega
  unfold prod3 at hp hpos
  have h0 : 0 < nk 0 := Nat.pos_of_ne_zero fun h => by simp [h] at hpos
  have h1 : 0 < nk 1 := Nat.pos_of_ne_zero fun h => by simp [h] at hpos
  have h2 : 0 < nk 2 := Nat.pos_of_ne_zero fun h => by simp [h] at hpos
  fin_cases a
  · change p / nk 2 / nk 1 < nk 0
    rw [Nat.div_lt_iff_lt_mul h1, Nat.div_lt_iff_lt_mul h2]
    exact hp
  · exact Nat.mod_lt _ h1
  · exact Nat.mod_lt _ h2

/-! ## Relative momenta and indices -/

theorem absolute_eq (units : Matrix (Fin 3) (Fin 3) ℝ) (x : Fin 3 → ℝ) : absolute units x = unitsᵀ.mulVec x := by
  funext j
  simp only [absolute, Matrix.mulVec, dotProduct, Matrix.transpose_apply]
  exact Finset.sum_congr rfl fun i _ => mul_comm _ _

theorem relative_absolute (units : Matrix (Fin 3) (Fin 3) ℝ) (h : units.det ≠ 0) (x : Fin 3 → ℝ) :
    (units⁻¹)ᵀ.mulVec (absolute units x) = x := by
  rw [absolute_eq, Matrix.mulVec_mulVec, ← Matrix.transpose_mul, Matrix.mul_nonsing_inv _ (isUnit_iff_ne_zero.2 h),
    Matrix.transpose_one, Matrix.one_mulVec]

/-- C93: the relative coordinates of a momentum are its coordinates along the reciprocal basis, for every basis. -/
theorem C93_relative (units : Matrix (Fin 3) (Fin 3) ℝ) (h : units.det ≠ 0) :
    (∀ x, relative units (absolute units x) = some x) ∧
    ∀ k, ∃ x, relative units k = some x ∧ absolute units x = k := by
  constructor
  · intro x
    rw [relative, if_neg h, relative_absolute units h]
  · intro k
    refine ⟨_, by rw [relative, if_neg h], ?_⟩
    rw [absolute_eq, Matrix.mulVec_mulVec, ← Matrix.transpose_mul, Matrix.nonsing_inv_mul _ (isUnit_iff_ne_zero.2 h),
      Matrix.transpose_one, Matrix.one_mulVec]

theorem npRound_near (x : ℝ) (m : ℤ) (h : |x - m| < 1 / 2) : npRound x = m := by
  have h1 := abs_lt.1 h
  by_cases hx : (m : ℝ) ≤ x
  · have hf : ⌊x⌋ = m := Int.floor_eq_iff.2 ⟨hx, by linarith⟩
    have hfr : Int.fract x < 1 / 2 := by rw [Int.fract, hf]; linarith
    rw [npRound, if_pos hfr, hf]
  · push Not at hx
    have hf : ⌊x⌋ = m - 1 := Int.floor_eq_iff.2 ⟨by push_cast; linarith, by push_cast; linarith⟩
    have hfr : 1 / 2 < Int.fract x := by rw [Int.fract, hf]; push_cast; linarith
    rw [npRound, if_neg (not_lt.2 hfr.le), if_pos hfr, hf]
    ring

/-- C93: the index of a mesh point is recovered from its momentum, for every error below half a mesh spacing. -/
theorem C93_index (nk : Fin 3 → ℕ) (hn : ∀ a, 0 < nk a) (i : Fin 3 → ℤ) (k : Fin 3 → ℝ)
    (h : ∀ a, |k a - i a / nk a| < 1 / (2 * nk a)) : kIndex k nk = i := by
  funext a
  apply npRound_near
  have hp : (0 : ℝ) < nk a := by exact_mod_cast hn a
  have e : k a * nk a - i a = (k a - i a / nk a) * nk a := by field_simp
  rw [e, abs_mul, abs_of_pos hp]
  calc |k a - i a / nk a| * nk a < 1 / (2 * nk a) * nk a := mul_lt_mul_of_pos_right (h a) hp
    _ = 1 / 2 := by field_simp

/-- C93: in particular every point of the mesh gets its own index. -/
theorem C93_mesh_index (units : Matrix (Fin 3) (Fin 3) ℝ) (h : units.det ≠ 0) (nk : Fin 3 → ℕ) (hn : ∀ a, 0 < nk a)
    (i : Fin 3 → ℕ) (hi : ∀ a, i a < nk a) :
    ∃ x, relative units (meshValues units nk (ravel nk i)) = some x ∧ kIndex x nk = fun a => (i a : ℤ) := by
  refine ⟨_, (C93_relative units h).1 _, ?_⟩
  apply C93_index nk hn
  intro a
  have hp : (0 : ℝ) < nk a := by exact_mod_cast hn a
  rw [unravel_ravel nk i hi]
  simp [hn a]

/-- a triangular lattice, mesh `2 × 3 × 1` -/
example : (!![1, 1 / 2, 0; 0, 1, 0; 0, 0, 1] : Matrix (Fin 3) (Fin 3) ℝ).det ≠ 0 ∧
    (∀ a, 0 < (![2, 3, 1] : Fin 3 → ℕ) a) ∧ ∀ a, (![1, 2, 0] : Fin 3 → ℕ) a < (![2, 3, 1] : Fin 3 → ℕ) a := by
  refine ⟨?_, ?_, ?_⟩
  · rw [Matrix.det_fin_three]; simp
  · intro a; fin_cases a <;> decide
  · intro a; fin_cases a <;> decide

/-! ## Axes of the mesh -/

theorem update_lt (nk : Fin 3 → ℕ) (hn : ∀ a, 0 < nk a) (axis : Fin 3) (j : ℕ) (hj : j < nk axis) (a : Fin 3) :
    (Function.update (0 : Fin 3 → ℕ) axis j) a < nk a := by
  by_cases h : a = axis
  · subst h; rw [Function.update_self]; exact hj
  · rw [Function.update_of_ne h]; exact hn a

/-- C93: the coordinates along the axes are `j / n`. -/
theorem C93_components (units : Matrix (Fin 3) (Fin 3) ℝ) (h : units.det ≠ 0) (nk : Fin 3 → ℕ) (hn : ∀ a, 0 < nk a) :
    ∃ c, kComponents (prod3 nk) (fun p => (units⁻¹)ᵀ.mulVec (meshValues units nk p)) nk = some c ∧
      ∀ axis j, j < nk axis → c axis j = (j : ℝ) / nk axis := by
  refine ⟨_, if_pos rfl, ?_⟩
  intro axis j hj
  dsimp only
  unfold meshValues
  rw [relative_absolute units h, unravel_ravel nk _ (update_lt nk hn axis j hj), Function.update_self]

/-- C93: a list of momenta with another number of points is refused. -/
theorem C93_components_refused (size : ℕ) (k : ℕ → Fin 3 → ℝ) (nk : Fin 3 → ℕ) (h : size ≠ prod3 nk) :
    kComponents size k nk = none := if_neg h

/-- C93: on the extended mesh every value is the one of the periodic image in the mesh, and the coordinates reach
`1`. -/
theorem C93_extended {α : Type} (values : ℕ → α) (nk : Fin 3 → ℕ) :
    ∃ e, extendData true (prod3 nk) values nk = some e ∧
      (∀ i : Fin 3 → ℕ, (∀ a, i a ≤ nk a) →
        e.values (ravel (fun a => nk a + 1) i) = values (ravel nk fun a => i a % nk a) ∧
        ∀ a, e.kRel (ravel (fun a => nk a + 1) i) a = (i a : ℝ) / nk a) ∧
      ∀ axis j, j ≤ nk axis → e.comps axis j = (j : ℝ) / nk axis := by
  refine ⟨⟨fun p => values (ravel nk fun a => unravel (fun a => nk a + 1) p a % nk a),
    fun p a => (unravel (fun a => nk a + 1) p a : ℝ) / nk a, fun axis j =>
      (unravel (fun a => nk a + 1) (ravel (fun a => nk a + 1) (Function.update 0 axis j)) axis : ℝ) / nk axis⟩, ?_, ?_⟩
  · unfold extendData kComponents
    simp
  · constructor
    · intro i hi
      have h := unravel_ravel (fun a => nk a + 1) i fun a => Nat.lt_succ_of_le (hi a)
      constructor
      · dsimp only
        rw [h]
      · intro a
        dsimp only
        rw [h]
    · intro axis j hj
      dsimp only
      rw [unravel_ravel (fun a => nk a + 1) _ (update_lt _ (fun a => Nat.succ_pos _) axis j (Nat.lt_succ_of_le hj)),
        Function.update_self]

/-! ## Interpolation -/

/-- linear interpolation along one axis of a grid -/
def lin (grid : ℕ → ℝ) (m : ℕ) (x : ℝ) (f : ℕ → ℂ) : ℂ :=
  (1 - (frac grid m x : ℂ)) * f (cell grid m x) + (frac grid m x : ℂ) * f (cell grid m x + 1)

theorem regularGrid_eq (grid : Fin 3 → ℕ → ℝ) (m : Fin 3 → ℕ) (values : ℕ → ℂ) (x : Fin 3 → ℝ)
    (h : ∀ a, grid a 0 ≤ x a ∧ x a ≤ grid a (m a - 1)) :
    regularGrid grid m values x = some (lin (grid 0) (m 0) (x 0) fun i0 => lin (grid 1) (m 1) (x 1) fun i1 =>
      lin (grid 2) (m 2) (x 2) fun i2 => values (ravel m ![i0, i1, i2])) := by
  rw [regularGrid, if_pos h]
  simp only [Fin.sum_univ_two, lin, if_true, Fin.one_eq_zero_iff, Fin.val_zero, Fin.val_one, add_zero]
  norm_num
  ring

theorem cell_uniform (grid : ℕ → ℝ) (n : ℕ) (hn : 0 < n) (hg : ∀ i ≤ n, grid i = (i : ℝ) / n) (i : ℕ) (hi : i < n)
    (x : ℝ) (h0 : (i : ℝ) / n ≤ x) (h1 : x < ((i + 1 : ℕ) : ℝ) / n ∨ (i + 1 = n ∧ x ≤ 1)) :
    cell grid (n + 1) x = i := by
  have hp : (0 : ℝ) < n := by exact_mod_cast hn
  classical
  unfold cell
  apply le_antisymm
  · refine Finset.sup_le fun j hj => ?_
    rw [Finset.mem_filter, Finset.mem_range, Nat.add_sub_cancel] at hj
    obtain ⟨hj1, hj2⟩ := hj
    rw [hg j hj1.le] at hj2
    rcases h1 with h1 | ⟨h1, _⟩
    · have h2 : (j : ℝ) / n < ((i + 1 : ℕ) : ℝ) / n := lt_of_le_of_lt hj2 h1
      rw [div_lt_div_iff_of_pos_right hp] at h2
      have : j < i + 1 := by exact_mod_cast h2
      simp only [id]
      omega
    · simp only [id]
      omega
  · have : i ∈ (Finset.range (n + 1 - 1)).filter fun j => grid j ≤ x := by
      rw [Finset.mem_filter, Finset.mem_range, Nat.add_sub_cancel]
      exact ⟨hi, by rw [hg i hi.le]; exact h0⟩
    have h2 := Finset.le_sup (f := id) this
    rw [id] at h2
    convert h2

/-- on a uniform grid: linear between the two neighbours -/
theorem lin_uniform (grid : ℕ → ℝ) (n : ℕ) (hn : 0 < n) (hg : ∀ i ≤ n, grid i = (i : ℝ) / n) (f : ℕ → ℂ)
    (i : ℕ) (hi : i < n) (t : ℝ) (h0 : 0 ≤ t) (h1 : t ≤ 1) :
    lin grid (n + 1) ((i + t) / n) f = (1 - (t : ℂ)) * f i + t * f (i + 1) := by
  have hp : (0 : ℝ) < n := by exact_mod_cast hn
  have hcell : ∀ (j : ℕ) (hj : j < n) (s : ℝ), (((j : ℝ) + s) / n - grid j) / (grid (j + 1) - grid j) = s := by
    intro j hj s
    rw [hg j hj.le, hg (j + 1) hj]
    push_cast
    field_simp
    ring
  by_cases hlt : t < 1 ∨ i + 1 = n
  · have hc : cell grid (n + 1) ((i + t) / n) = i := by
      apply cell_uniform grid n hn hg i hi
      · exact div_le_div_of_nonneg_right (by linarith) hp.le
      · rcases hlt with h | h
        · left
          rw [div_lt_div_iff_of_pos_right hp]
          push_cast
          linarith
        · right
          refine ⟨h, ?_⟩
          rw [div_le_one hp, ← h]
          push_cast
          linarith
    have hfr : frac grid (n + 1) ((i + t) / n) = t := by
      rw [frac, hc, hcell i hi]
    rw [lin, hfr, hc]
  · push Not at hlt
    obtain ⟨h2, h3⟩ := hlt
    have ht : t = 1 := le_antisymm h1 h2
    subst ht
    have hi' : i + 1 < n := by omega
    have hc : cell grid (n + 1) (((i : ℝ) + 1) / n) = i + 1 := by
      apply cell_uniform grid n hn hg (i + 1) hi'
      · push_cast; exact le_refl _
      · left
        rw [div_lt_div_iff_of_pos_right hp]
        push_cast
        linarith
    have hfr : frac grid (n + 1) (((i : ℝ) + 1) / n) = 0 := by
      rw [frac, hc]
      have := hcell (i + 1) hi' 0
      push_cast at this
      rw [add_zero] at this
      exact this
    rw [lin, hfr, hc]
    push_cast
    ring

/-- C93: the interpolator of the extended data. For a point of the cell of the mesh point `i` with the inner
coordinates `t` it is the trilinear combination of the eight corners, all taken periodically; outside the cell of
relative coordinates `0 ≤ x ≤ 1` it returns no number. -/
theorem C93_interpolator (units : Matrix (Fin 3) (Fin 3) ℝ) (h : units.det ≠ 0) (nk : Fin 3 → ℕ) (hn : ∀ a, 0 < nk a)
    (values : ℕ → ℂ) :
    ∃ f, relInterpolator true true units nk (prod3 nk) values = some f ∧
      (∀ i : Fin 3 → ℕ, (∀ a, i a < nk a) → ∀ t : Fin 3 → ℝ, (∀ a, 0 ≤ t a ∧ t a ≤ 1) →
        f (fun a => (i a + t a) / nk a) = some (∑ c : Fin 2 × Fin 2 × Fin 2,
          (if c.1 = 0 then 1 - (t 0 : ℂ) else t 0) * (if c.2.1 = 0 then 1 - (t 1 : ℂ) else t 1)
            * (if c.2.2 = 0 then 1 - (t 2 : ℂ) else t 2)
            * values (ravel nk ![(i 0 + c.1) % nk 0, (i 1 + c.2.1) % nk 1, (i 2 + c.2.2) % nk 2]))) ∧
      ∀ x, (∃ a, x a < 0 ∨ 1 < x a) → f x = none := by
  obtain ⟨c, hc, -⟩ := C93_components units h nk hn
  obtain ⟨e, he, hv, hcomp⟩ := C93_extended values nk
  have h0 : ∀ a, e.comps a 0 = 0 := fun a => by rw [hcomp a 0 (Nat.zero_le _)]; simp
  have h1 : ∀ a, e.comps a (nk a + 1 - 1) = 1 := fun a => by
    rw [Nat.add_sub_cancel, hcomp a _ le_rfl, div_self]
    exact_mod_cast (hn a).ne'
  refine ⟨regularGrid e.comps (fun a => nk a + 1) e.values, ?_, ?_, ?_⟩
  · unfold relInterpolator
    rw [if_neg h]
    dsimp only
    rw [hc]
    dsimp only
    rw [if_pos rfl, he]
  · intro i hi t ht
    rw [regularGrid_eq]
    · congr 1
      have hu := fun a => lin_uniform (e.comps a) (nk a) (hn a) (fun j hj => hcomp a j hj)
      rw [hu 0 _ (i 0) (hi 0) (t 0) (ht 0).1 (ht 0).2]
      rw [hu 1 _ (i 1) (hi 1) (t 1) (ht 1).1 (ht 1).2, hu 1 _ (i 1) (hi 1) (t 1) (ht 1).1 (ht 1).2]
      rw [hu 2 _ (i 2) (hi 2) (t 2) (ht 2).1 (ht 2).2, hu 2 _ (i 2) (hi 2) (t 2) (ht 2).1 (ht 2).2,
        hu 2 _ (i 2) (hi 2) (t 2) (ht 2).1 (ht 2).2, hu 2 _ (i 2) (hi 2) (t 2) (ht 2).1 (ht 2).2]
      have hv' : ∀ a b c : ℕ, a ≤ nk 0 → b ≤ nk 1 → c ≤ nk 2 →
          e.values (ravel (fun a => nk a + 1) ![a, b, c]) = values (ravel nk ![a % nk 0, b % nk 1, c % nk 2]) := by
        intro a b c ha hb hc'
        rw [(hv ![a, b, c] (by intro j; fin_cases j <;> assumption)).1]
        congr 1
      have i0 := hi 0
      have i1 := hi 1
      have i2 := hi 2
      rw [hv' _ _ _ (by omega) (by omega) (by omega), hv' _ _ _ (by omega) (by omega) (by omega),
        hv' _ _ _ (by omega) (by omega) (by omega), hv' _ _ _ (by omega) (by omega) (by omega),
        hv' _ _ _ (by omega) (by omega) (by omega), hv' _ _ _ (by omega) (by omega) (by omega),
        hv' _ _ _ (by omega) (by omega) (by omega), hv' _ _ _ (by omega) (by omega) (by omega)]
      simp only [Fintype.sum_prod_type, Fin.sum_univ_two, Fin.val_zero, Fin.val_one, add_zero, if_true]
      norm_num
      ring
    · intro a
      have hp : (0 : ℝ) < nk a := by exact_mod_cast hn a
      have hia : ((i a : ℝ) + 1) ≤ nk a := by exact_mod_cast hi a
      have := ht a
      rw [h0, h1]
      constructor
      · exact div_nonneg (by have : (0 : ℝ) ≤ i a := Nat.cast_nonneg _; linarith) hp.le
      · rw [div_le_one hp]; linarith
  · rintro x ⟨a, ha⟩
    rw [regularGrid, if_neg]
    intro hx
    have h2 := hx a
    rw [h0, h1] at h2
    rcases ha with ha | ha <;> linarith

/-- C93: the interpolator passes through the data, also at the boundary points that are images of mesh points. -/
theorem C93_interpolates (units : Matrix (Fin 3) (Fin 3) ℝ) (h : units.det ≠ 0) (nk : Fin 3 → ℕ) (hn : ∀ a, 0 < nk a)
    (values : ℕ → ℂ) :
    ∃ f, relInterpolator true true units nk (prod3 nk) values = some f ∧
      ∀ i : Fin 3 → ℕ, (∀ a, i a ≤ nk a) →
        f (fun a => (i a : ℝ) / nk a) = some (values (ravel nk fun a => i a % nk a)) := by
  obtain ⟨f, hf, hcell, -⟩ := C93_interpolator units h nk hn values
  refine ⟨f, hf, ?_⟩
  intro i hi
  -- a point on the far boundary belongs to the last cell
  let j : Fin 3 → ℕ := fun a => if i a = nk a then i a - 1 else i a
  let t : Fin 3 → ℝ := fun a => if i a = nk a then 1 else 0
  have hj : ∀ a, j a < nk a := by
    intro a
    have := hi a
    have := hn a
    simp only [j]
    split_ifs <;> omega
  have ht : ∀ a, 0 ≤ t a ∧ t a ≤ 1 := by
    intro a
    simp only [t]
    split_ifs <;> norm_num
  have hx : (fun a => (i a : ℝ) / nk a) = fun a => ((j a : ℝ) + t a) / nk a := by
    funext a
    simp only [j, t]
    by_cases hia : i a = nk a
    · have := hn a
      rw [if_pos hia, if_pos hia, Nat.cast_sub (by omega)]
      push_cast
      ring
    · rw [if_neg hia, if_neg hia, add_zero]
  rw [hx, hcell j hj t ht]
  congr 1
  have key : ∀ a, (t a = 0 ∧ j a % nk a = i a % nk a) ∨ (t a = 1 ∧ (j a + 1) % nk a = i a % nk a) := by
    intro a
    simp only [t, j]
    by_cases hia : i a = nk a
    · right
      have := hn a
      rw [if_pos hia, if_pos hia]
      refine ⟨rfl, ?_⟩
      congr 1
      omega
    · left
      rw [if_neg hia, if_neg hia]
      exact ⟨rfl, rfl⟩
  have hfun : ∀ b : Fin 3 → ℕ, (![b 0, b 1, b 2] : Fin 3 → ℕ) = b := by
    intro b
    funext a
    fin_cases a <;> rfl
  have hgoal : values (ravel nk fun a => i a % nk a)
      = values (ravel nk ![i 0 % nk 0, i 1 % nk 1, i 2 % nk 2]) := by
    rw [← hfun fun a => i a % nk a]
  rw [hgoal]
  simp only [Fintype.sum_prod_type, Fin.sum_univ_two, Fin.val_zero, Fin.val_one, add_zero, if_true]
  rcases key 0 with ⟨a0, b0⟩ | ⟨a0, b0⟩ <;> rcases key 1 with ⟨a1, b1⟩ | ⟨a1, b1⟩ <;>
    rcases key 2 with ⟨a2, b2⟩ | ⟨a2, b2⟩ <;> simp [a0, b0, a1, b1, a2, b2]

/-- the trilinear combination of the corners -/
def corners (nk : Fin 3 → ℕ) (values : ℕ → ℂ) (i : Fin 3 → ℕ) (t : Fin 3 → ℝ) : ℂ :=
  ∑ c : Fin 2 × Fin 2 × Fin 2,
    (if c.1 = 0 then 1 - (t 0 : ℂ) else t 0) * (if c.2.1 = 0 then 1 - (t 1 : ℂ) else t 1)
      * (if c.2.2 = 0 then 1 - (t 2 : ℂ) else t 2)
      * values (ravel nk ![(i 0 + c.1) % nk 0, (i 1 + c.2.1) % nk 1, (i 2 + c.2.2) % nk 2])

theorem corners_face (nk : Fin 3 → ℕ) (values : ℕ → ℂ) (i i' : Fin 3 → ℕ) (t t' : Fin 3 → ℝ) (b : Fin 3)
    (h : ∀ a, a ≠ b → i a = i' a ∧ t a = t' a) (h0 : t b = 0) (h1 : t' b = 1)
    (h2 : i b % nk b = (i' b + 1) % nk b) : corners nk values i t = corners nk values i' t' := by
  simp only [corners, Fintype.sum_prod_type, Fin.sum_univ_two, Fin.val_zero, Fin.val_one, add_zero, if_true,
    one_ne_zero, if_false]
  fin_cases b
  · have e1 := h 1 (by decide)
    have e2 := h 2 (by decide)
    change t 0 = 0 at h0
    change t' 0 = 1 at h1
    change i 0 % nk 0 = (i' 0 + 1) % nk 0 at h2
    rw [h0, h1, h2, e1.1, e2.1, e1.2, e2.2]
    push_cast
    ring
  · have e1 := h 0 (by decide)
    have e2 := h 2 (by decide)
    change t 1 = 0 at h0
    change t' 1 = 1 at h1
    change i 1 % nk 1 = (i' 1 + 1) % nk 1 at h2
    rw [h0, h1, h2, e1.1, e2.1, e1.2, e2.2]
    push_cast
    ring
  · have e1 := h 0 (by decide)
    have e2 := h 1 (by decide)
    change t 2 = 0 at h0
    change t' 2 = 1 at h1
    change i 2 % nk 2 = (i' 2 + 1) % nk 2 at h2
    rw [h0, h1, h2, e1.1, e2.1, e1.2, e2.2]
    push_cast
    ring

/-- C93: the interpolated function is periodic: opposite faces of the cell carry the same values. -/
theorem C93_periodic (units : Matrix (Fin 3) (Fin 3) ℝ) (h : units.det ≠ 0) (nk : Fin 3 → ℕ) (hn : ∀ a, 0 < nk a)
    (values : ℕ → ℂ) (f) (hf : relInterpolator true true units nk (prod3 nk) values = some f) (b : Fin 3)
    (x : Fin 3 → ℝ) (hx : ∀ a, 0 ≤ x a ∧ x a ≤ 1) :
    f (Function.update x b 0) = f (Function.update x b 1) ∧ f x ≠ none := by
  obtain ⟨f', hf', hcell, -⟩ := C93_interpolator units h nk hn values
  rw [hf] at hf'
  obtain rfl := Option.some.inj hf'
  -- cell and inner coordinate of every coordinate
  have hloc : ∀ (a : Fin 3) (y : ℝ), 0 ≤ y → y ≤ 1 →
      ∃ (i : ℕ) (t : ℝ), i < nk a ∧ 0 ≤ t ∧ t ≤ 1 ∧ y = (i + t) / nk a := by
    intro a y h0 h1
    have hp : (0 : ℝ) < nk a := by exact_mod_cast hn a
    by_cases hy : y = 1
    · refine ⟨nk a - 1, 1, by have := hn a; omega, by norm_num, le_refl _, ?_⟩
      rw [Nat.cast_sub (hn a), hy]
      push_cast
      field_simp
      ring
    · have hy1 : y < 1 := lt_of_le_of_ne h1 hy
      have hyn : 0 ≤ y * nk a := mul_nonneg h0 hp.le
      refine ⟨⌊y * nk a⌋₊, y * nk a - ⌊y * nk a⌋₊, ?_, ?_, ?_, ?_⟩
      · rw [Nat.floor_lt hyn]
        nlinarith
      · have := Nat.floor_le hyn
        linarith
      · have := Nat.lt_floor_add_one (y * nk a)
        linarith
      · field_simp
        ring
  choose i t hi ht0 ht1 hxi using fun a => hloc a (x a) (hx a).1 (hx a).2
  constructor
  · have e0 : Function.update x b 0
        = fun a => ((Function.update i b 0) a + (Function.update t b 0) a) / nk a := by
      funext a
      by_cases hab : a = b
      · subst hab; simp
      · simp only [Function.update_of_ne hab]; exact hxi a
    have e1 : Function.update x b 1
        = fun a => ((Function.update i b (nk b - 1)) a + (Function.update t b 1) a) / nk a := by
      funext a
      by_cases hab : a = b
      · subst hab
        have hp : (0 : ℝ) < nk a := by exact_mod_cast hn a
        simp only [Function.update_self]
        rw [Nat.cast_sub (hn a)]
        push_cast
        field_simp
        ring
      · simp only [Function.update_of_ne hab]; exact hxi a
    have hnb := hn b
    rw [e0, e1, hcell _ ?_ _ ?_, hcell _ ?_ _ ?_]
    · congr 1
      apply corners_face nk values _ _ _ _ b
      · intro a hab
        simp only [Function.update_of_ne hab, and_self]
      · exact Function.update_self ..
      · exact Function.update_self ..
      · rw [Function.update_self, Function.update_self, Nat.sub_add_cancel hnb, Nat.mod_self, Nat.zero_mod]
    all_goals
      intro a
      by_cases hab : a = b
      · subst hab; simp [hnb]
      · simp only [Function.update_of_ne hab]
        first
          | exact ⟨ht0 a, ht1 a⟩
          | exact hi a
  · have e : x = fun a => ((i a : ℝ) + t a) / nk a := funext hxi
    rw [e, hcell i hi t fun a => ⟨ht0 a, ht1 a⟩]
    simp

/-- C93: without the extension there is no value beyond the last mesh point, although the function is periodic. -/
theorem C93_unextended (units : Matrix (Fin 3) (Fin 3) ℝ) (h : units.det ≠ 0) (nk : Fin 3 → ℕ) (hn : ∀ a, 0 < nk a)
    (npFloat : Bool) (values : ℕ → ℂ) :
    ∃ f, relInterpolator npFloat false units nk (prod3 nk) values = some f ∧
      ∀ x, (∃ a, ((nk a - 1 : ℕ) : ℝ) / nk a < x a) → f x = none := by
  obtain ⟨c, hc, hcv⟩ := C93_components units h nk hn
  refine ⟨regularGrid c nk values, ?_, ?_⟩
  · unfold relInterpolator
    rw [if_neg h]
    dsimp only
    rw [hc]
    dsimp only
    rw [if_neg (by simp), if_pos rfl]
  · rintro x ⟨a, ha⟩
    rw [regularGrid, if_neg]
    intro hx
    have h2 := (hx a).2
    rw [hcv a _ (by have := hn a; omega)] at h2
    linarith

/-- C93: with a numpy that no longer has `np.float` the default interpolator cannot be built for any input. -/
theorem C93_numpy_violated (units : Matrix (Fin 3) (Fin 3) ℝ) (nk : Fin 3 → ℕ) (size : ℕ) (values : ℕ → ℂ) :
    relInterpolator false true units nk size values = none := by
  unfold relInterpolator
  by_cases hd : units.det = 0
  · rw [if_pos hd]
  · rw [if_neg hd]
    dsimp only
    split
    · rfl
    · have : extendData false size values nk = none := by
        unfold extendData
        by_cases hs : size ≠ prod3 nk
        · rw [if_pos hs]
        · rw [if_neg hs]
          rfl
      rw [if_pos rfl, this]

/-! ## Scattered data -/

/-- C93: the data handed to the scattered interpolator are periodic: exactly the values of the mesh points at these
points shifted by the requested reciprocal lattice vectors. -/
theorem C93_scattered {α : Type} (units : Matrix (Fin 3) (Fin 3) ℝ) (nk : Fin 3 → ℕ) (values : ℕ → α) (ext : List ℤ)
    (k : Fin 3 → ℝ) (v : α) :
    (k, v) ∈ absData units nk values ext ↔ ∃ (i : Fin 3 → ℕ) (s : Fin 3 → ℤ), (∀ a, i a < nk a) ∧ (∀ a, s a ∈ ext) ∧
      v = values (ravel nk i) ∧ k = absolute units fun a => (i a : ℝ) / nk a + s a := by
  have hadd : ∀ (x y : Fin 3 → ℝ), (fun j => absolute units x j + (unitsᵀ.mulVec y) j)
      = absolute units fun a => x a + y a := by
    intro x y
    rw [absolute_eq, absolute_eq]
    have : (fun a => x a + y a) = x + y := rfl
    rw [this, Matrix.mulVec_add]
    rfl
  unfold absData
  simp only [List.mem_flatMap, List.mem_map, List.mem_range, Prod.mk.injEq]
  constructor
  · rintro ⟨s0, h0, s1, h1, s2, h2, p, hp, hk, hv⟩
    refine ⟨unravel nk p, ![s0, s1, s2], unravel_lt nk p hp, ?_, ?_, ?_⟩
    · intro a; fin_cases a <;> assumption
    · rw [ravel_unravel]; exact hv.symm
    · rw [← hk, meshValues, hadd]
  · rintro ⟨i, s, hi, hs, rfl, rfl⟩
    refine ⟨s 0, hs 0, s 1, hs 1, s 2, hs 2, ravel nk i, ravel_lt nk i hi, ?_, rfl⟩
    rw [meshValues, hadd, unravel_ravel nk i hi]
    congr 1
    funext a
    fin_cases a <;> rfl

end Verif.KMesh
