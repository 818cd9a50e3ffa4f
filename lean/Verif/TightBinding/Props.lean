import Verif.TightBinding.Model
import Mathlib.Tactic.Ring
import Mathlib.Tactic.Linarith
import Mathlib.Tactic.NormNum
import Mathlib.Tactic.FinCases

/-!
# C68: tight binding models
-/

noncomputable section

namespace Verif.TightBinding

open Complex Matrix

/-- Fourier transform of a dictionary of hoppings at momentum `(kx, ky)` in reciprocal units -/
def bloch {N : ℕ} (h : List ((ℤ × ℤ) × Matrix (Fin N) (Fin N) ℂ)) (kx ky : ℝ) : Matrix (Fin N) (Fin N) ℂ :=
  (h.map fun p => exp (2 * Real.pi * I * (kx * p.1.1 + ky * p.1.2)) • p.2).sum

/-- C68: a Zeeman term without spin is refused, everything else is accepted with the right number of orbitals. -/
theorem C68_refuses (norb : ℕ) (t tp zeeman : ℂ) (spin : Bool) :
    (createSquareLattice norb t tp zeeman spin = none ↔ zeeman ≠ 0 ∧ spin = false) ∧
    ∀ L, createSquareLattice norb t tp zeeman spin = some L →
      L.1 = if spin then norb * 2 else norb := by
  unfold createSquareLattice
  by_cases h : zeeman ≠ 0 ∧ spin = false
  · rw [if_pos h]
    exact ⟨by simp [h], by simp⟩
  · rw [if_neg h]
    refine ⟨by simpa using h, ?_⟩
    rintro L hL
    rw [Option.some.injEq] at hL
    rw [← hL]

/-- C68: dispersion for arbitrary amplitudes. -/
theorem C68_dispersion (N : ℕ) (t tp zeeman : ℂ) (kx ky : ℝ) (a b : Fin N) :
    bloch (squareHoppings N t tp zeeman) kx ky a b
      = if a = b then -2 * t * (cos (2 * Real.pi * kx) + cos (2 * Real.pi * ky))
          - 4 * tp * cos (2 * Real.pi * kx) * cos (2 * Real.pi * ky) + zeeman * (-1) ^ (a : ℕ) else 0 := by
  have hx : exp (2 * Real.pi * I * kx) = cos (2 * Real.pi * kx) + sin (2 * Real.pi * kx) * I := by
    rw [show (2 * Real.pi * I * kx : ℂ) = (2 * Real.pi * kx) * I by ring, exp_mul_I]
  have hx' : exp (-(2 * Real.pi * I * kx)) = cos (2 * Real.pi * kx) - sin (2 * Real.pi * kx) * I := by
    rw [show (-(2 * Real.pi * I * kx) : ℂ) = (-(2 * Real.pi * kx)) * I by ring, exp_mul_I, cos_neg, sin_neg]
    ring
  have hy : exp (2 * Real.pi * I * ky) = cos (2 * Real.pi * ky) + sin (2 * Real.pi * ky) * I := by
    rw [show (2 * Real.pi * I * ky : ℂ) = (2 * Real.pi * ky) * I by ring, exp_mul_I]
  have hy' : exp (-(2 * Real.pi * I * ky)) = cos (2 * Real.pi * ky) - sin (2 * Real.pi * ky) * I := by
    rw [show (-(2 * Real.pi * I * ky) : ℂ) = (-(2 * Real.pi * ky)) * I by ring, exp_mul_I, cos_neg, sin_neg]
    ring
  simp only [bloch, squareHoppings, List.map_cons, List.map_nil, List.sum_cons, List.sum_nil, Matrix.add_apply,
    Matrix.smul_apply, smul_eq_mul, Int.cast_zero, Int.cast_one, Int.cast_neg, mul_zero,
    add_zero, mul_one, mul_neg, exp_zero, one_mul, mul_add, exp_add, hx, hx', hy, hy']
  by_cases h : a = b
  · subst h
    simp only [Matrix.diagonal_apply_eq, Matrix.one_apply_eq, if_true]
    ring
  · simp only [Matrix.diagonal_apply_ne _ h, Matrix.one_apply_ne h, if_neg h]
    ring

/-- C68: for real amplitudes `t(-r) = t(r)^†`, and the dispersion is hermitian. -/
theorem C68_hermitian_partial (N : ℕ) (t tp zeeman : ℝ) :
    (∀ p ∈ squareHoppings N t tp zeeman, (-p.1, p.2ᴴ) ∈ squareHoppings N t tp zeeman) ∧
    ∀ kx ky, (bloch (squareHoppings N t tp zeeman) kx ky).IsHermitian := by
  constructor
  · have h1 : ∀ x : ℝ, ((-(x : ℂ)) • (1 : Matrix (Fin N) (Fin N) ℂ))ᴴ = (-(x : ℂ)) • 1 := by
      intro x; rw [conjTranspose_smul, conjTranspose_one]; simp
    have h2 : ((zeeman : ℂ) • (Matrix.diagonal fun orb : Fin N => (-1 : ℂ) ^ (orb : ℕ)))ᴴ
        = (zeeman : ℂ) • (Matrix.diagonal fun orb : Fin N => (-1 : ℂ) ^ (orb : ℕ)) := by
      rw [conjTranspose_smul, diagonal_conjTranspose]
      congr 2
      · simp
      · funext i; simp
    intro p hp
    simp only [squareHoppings, List.mem_cons, List.not_mem_nil, or_false] at hp
    rcases hp with rfl | rfl | rfl | rfl | rfl | rfl | rfl | rfl | rfl <;>
      simp only [h1, h2] <;> simp [squareHoppings]
  · intro kx ky
    ext a b
    rw [conjTranspose_apply, C68_dispersion, C68_dispersion]
    have hc : ∀ x : ℝ, star (cos (2 * Real.pi * (x : ℂ))) = cos (2 * Real.pi * (x : ℂ)) := by
      intro x
      rw [← starRingEnd_apply, ← cos_conj]
      congr 1
      simp [Complex.conj_ofNat]
    by_cases h : b = a
    · subst h
      simp [hc]
    · rw [if_neg h, if_neg (Ne.symm h), star_zero]

/-- C68 is violated for a complex amplitude, which the documentation allows: `t = i`, one orbital. -/
theorem C68_hermitian_violated :
    createSquareLattice 1 I 0 0 false = some ⟨1, squareHoppings 1 I 0 0⟩ ∧
      ¬ (bloch (squareHoppings 1 I 0 0) 0 0).IsHermitian := by
  constructor
  · simp [createSquareLattice]
  · intro h
    have h1 := congrFun (congrFun h 0) 0
    rw [conjTranspose_apply, C68_dispersion] at h1
    have h2 := congrArg Complex.im h1
    simp at h2
    norm_num at h2

/-- nearest neighbours -/
theorem mem_product3 (d : ℕ) (h : List ℤ) :
    h ∈ product3 d ↔ h.length = d ∧ ∀ x ∈ h, x = -1 ∨ x = 0 ∨ x = 1 := by
  induction d generalizing h with
  | zero => simp only [product3, List.mem_singleton, List.length_eq_zero_iff]
            constructor
            · rintro rfl; simp
            · rintro ⟨rfl, _⟩; rfl
  | succ d ih =>
    simp only [product3, List.mem_flatMap, List.mem_map]
    constructor
    · rintro ⟨x, hx, l, hl, rfl⟩
      obtain ⟨h1, h2⟩ := (ih l).1 hl
      refine ⟨by simp [h1], ?_⟩
      intro y hy
      rcases List.mem_cons.1 hy with rfl | hy
      · simpa using hx
      · exact h2 y hy
    · rintro ⟨h1, h2⟩
      cases h with
      | nil => simp at h1
      | cons x l =>
        refine ⟨x, by simpa using h2 x (by simp), l, (ih l).2 ⟨by simpa using h1, fun y hy => h2 y (by simp [hy])⟩, rfl⟩

/-- C68: the test model has exactly the nearest neighbour vectors (length `dim`, one entry `±1`, others zero),
all with the same matrix, so it is hermitian when that matrix is. -/
theorem C68_model_for_tests (dim : ℕ) (t1 t2 t12 t21 : ℂ) (t : ℂ) :
    ∃ L, createModelForTests 2 dim t t1 t2 t12 t21 = some ⟨2, L⟩ ∧
      (∀ h M, (h, M) ∈ L ↔ (h.length = dim ∧ (h.map Int.natAbs).sum = 1) ∧ M = -!![t1, t12; t21, t2]) ∧
      ((!![t1, t12; t21, t2]).IsHermitian → ∀ h M, (h, M) ∈ L → (h.map (- ·), Mᴴ) ∈ L) := by
  refine ⟨_, rfl, ?_⟩
  have key : ∀ h : List ℤ, (h.map Int.natAbs).sum = 1 → ∀ x ∈ h, x = -1 ∨ x = 0 ∨ x = 1 := by
    intro h hs x hx
    have : x.natAbs ≤ (h.map Int.natAbs).sum := List.single_le_sum (by simp) _ (List.mem_map_of_mem hx)
    omega
  have mem : ∀ (h : List ℤ) (M : Matrix (Fin 2) (Fin 2) ℂ),
      (h, M) ∈ (((product3 dim).filter fun h => (h.map Int.natAbs).sum = 1).map
        fun h => (h, -!![t1, t12; t21, t2])) ↔
      (h.length = dim ∧ (h.map Int.natAbs).sum = 1) ∧ M = -!![t1, t12; t21, t2] := by
    intro h M
    simp only [List.mem_map, List.mem_filter, mem_product3, Prod.mk.injEq, decide_eq_true_eq]
    constructor
    · rintro ⟨h', ⟨⟨h1, h2⟩, h3⟩, rfl, rfl⟩
      exact ⟨⟨h1, h3⟩, rfl⟩
    · rintro ⟨⟨h1, h3⟩, rfl⟩
      exact ⟨h, ⟨⟨h1, key h h3⟩, h3⟩, rfl, rfl⟩
  refine ⟨mem, ?_⟩
  intro hH h M hM
  rw [mem] at hM ⊢
  obtain ⟨⟨h1, h2⟩, rfl⟩ := hM
  refine ⟨⟨by simp [h1], ?_⟩, ?_⟩
  · rw [List.map_map, ← h2]
    congr 1
    apply List.map_congr_left
    intro x _
    simp
  · rw [conjTranspose_neg, hH]

end Verif.TightBinding
