import Verif.Nda.Model
import Mathlib.Tactic.Ring
import Mathlib.Tactic.Linarith
import Mathlib.Tactic.FinCases
import Mathlib.Data.Fin.VecNotation

/-!
# What the grouped views used in the code are
-/

namespace Verif.Nda

/-- The view `(0,1)|(3,2)` of a C-ordered `nb⁴` array, used by the RPA solver, the screened
interaction and the Eliashberg vertex: row `a nb + b`, column `c nb + d` is the element `(a,b,c,d)`;
the last two axes are *not* exchanged. -/
theorem groupView_01_32 {F : Type*} (nb : ℕ) (mem : ℕ → F) (arr : (Fin 4 → ℕ) → F)
    (h : Stores (fun _ => nb) (strideOf (fun _ => nb) [0, 1, 2, 3]) mem arr) (a b c d : ℕ)
    (ha : a < nb) (hb : b < nb) (hc : c < nb) (hd : d < nb) :
    groupView (strideOf (fun _ => nb) [(0 : Fin 4), 1, 2, 3]) mem [0, 1] [3, 2]
      (a * nb + b) (c * nb + d) = arr ![a, b, c, d] := by
  have hnb : 1 ≤ nb := by omega
  rw [← h ![a, b, c, d] (by intro i; fin_cases i <;> simpa)]
  simp only [groupView, groupStride, strideOf, offset, Fin.sum_univ_four, List.map_cons,
    List.map_nil, List.prod_cons, List.prod_nil]
  congr 1
  simp
  rw [Nat.min_eq_left hnb, Nat.min_eq_right (by nlinarith)]
  ring

/-- The same for `(0,1)|(2,3)`: the listing order inside a group has no influence. -/
theorem groupView_order_irrelevant {F : Type*} (strides : Fin 4 → ℕ) (mem : ℕ → F) :
    groupView strides mem [0, 1] [3, 2] = groupView strides mem [0, 1] [2, 3] := by
  funext r c
  simp only [groupView, groupStride, min_comm]

/-- No pair of strides realises the view with row `(a,b)` and column `(d,c)` on a C-ordered array with
`nb ≥ 2` orbitals: the offset of column `d nb + c` would have to be `c nb + d`. -/
theorem no_strided_view_for_swapped_pair (nb : ℕ) (hnb : 2 ≤ nb) :
    ¬ ∃ s : ℕ, ∀ c d : ℕ, c < nb → d < nb → (d * nb + c) * s = c * nb + d := by
  rintro ⟨s, hs⟩
  have h1 := hs 1 0 (by omega) (by omega)
  have h2 := hs 0 1 (by omega) (by omega)
  simp at h1 h2
  subst h1
  nlinarith

/-- shape of a two-particle quantity `(n, n', a, b, c, d)` -/
def shape6 (nw nb : ℕ) : Fin 6 → ℕ := ![nw, nw, nb, nb, nb, nb]

theorem le_mul_pos {a b : ℕ} (h : 0 < b) : a ≤ b * a := Nat.le_mul_of_pos_left _ h

/-- The channel view of an array stored with the stride order `order = (i₀ i₁ i₂ i₃ i₄ i₅)`, grouped as
`(i₀ i₁ i₂)|(i₃ i₄ i₅)`: strides of the two groups. Only `0 < extents` is needed. -/
theorem groupStride_three (x y z : ℕ) (hyz : y ≤ x) (hzy : z ≤ y) : min x (min y z) = z := by
  omega

/-- `channel_matrix_view<Channel_t::PH>` (`/repo/c++/triqs_tprf/channel_grouping.hpp:55,83-86`): row
`(n, a, b)`, column `(n', d, c)`. -/
theorem groupView_PH {F : Type*} (nw nb : ℕ) (mem : ℕ → F) (arr : (Fin 6 → ℕ) → F)
    (h : Stores (shape6 nw nb) (strideOf (shape6 nw nb) [0, 2, 3, 1, 5, 4]) mem arr)
    (n m a b c d : ℕ) (hn : n < nw) (hm : m < nw) (ha : a < nb) (hb : b < nb) (hc : c < nb)
    (hd : d < nb) :
    groupView (strideOf (shape6 nw nb) [0, 2, 3, 1, 5, 4]) mem [0, 2, 3] [1, 5, 4]
      ((n * nb + a) * nb + b) ((m * nb + d) * nb + c) = arr ![n, m, a, b, c, d] := by
  have hnb : 0 < nb := by omega
  have hnw : 0 < nw := by omega
  rw [← h ![n, m, a, b, c, d] (by intro i; fin_cases i <;> simpa [shape6])]
  have s0 : min (nb * (nb * (nw * (nb * nb)))) (min (nb * (nw * (nb * nb))) (nw * (nb * nb)))
      = nw * (nb * nb) := groupStride_three _ _ _ (le_mul_pos hnb) (le_mul_pos hnb)
  have s1 : min (nb * nb) (min nb 1) = 1 := groupStride_three _ _ _ (le_mul_pos hnb) hnb
  simp [groupView, groupStride, strideOf, offset, Fin.sum_univ_succ, shape6, s0, s1]
  congr 1
  ring

/-- `channel_matrix_view<Channel_t::PH_bar>` (`channel_grouping.hpp:64`): row `(n, a, d)`, column
`(n', c, b)`. -/
theorem groupView_PHbar {F : Type*} (nw nb : ℕ) (mem : ℕ → F) (arr : (Fin 6 → ℕ) → F)
    (h : Stores (shape6 nw nb) (strideOf (shape6 nw nb) [0, 2, 5, 1, 4, 3]) mem arr)
    (n m a b c d : ℕ) (hn : n < nw) (hm : m < nw) (ha : a < nb) (hb : b < nb) (hc : c < nb)
    (hd : d < nb) :
    groupView (strideOf (shape6 nw nb) [0, 2, 5, 1, 4, 3]) mem [0, 2, 5] [1, 4, 3]
      ((n * nb + a) * nb + d) ((m * nb + c) * nb + b) = arr ![n, m, a, b, c, d] := by
  have hnb : 0 < nb := by omega
  have hnw : 0 < nw := by omega
  rw [← h ![n, m, a, b, c, d] (by intro i; fin_cases i <;> simpa [shape6])]
  have s0 : min (nb * (nb * (nw * (nb * nb)))) (min (nb * (nw * (nb * nb))) (nw * (nb * nb)))
      = nw * (nb * nb) := groupStride_three _ _ _ (le_mul_pos hnb) (le_mul_pos hnb)
  have s1 : min (nb * nb) (min nb 1) = 1 := groupStride_three _ _ _ (le_mul_pos hnb) hnb
  simp [groupView, groupStride, strideOf, offset, Fin.sum_univ_succ, shape6, s0, s1]
  congr 1
  ring

/-- `channel_matrix_view<Channel_t::PP>` (`channel_grouping.hpp:72`): row `(n, a, c)`, column
`(n', b, d)`. -/
theorem groupView_PP {F : Type*} (nw nb : ℕ) (mem : ℕ → F) (arr : (Fin 6 → ℕ) → F)
    (h : Stores (shape6 nw nb) (strideOf (shape6 nw nb) [0, 2, 4, 1, 3, 5]) mem arr)
    (n m a b c d : ℕ) (hn : n < nw) (hm : m < nw) (ha : a < nb) (hb : b < nb) (hc : c < nb)
    (hd : d < nb) :
    groupView (strideOf (shape6 nw nb) [0, 2, 4, 1, 3, 5]) mem [0, 2, 4] [1, 3, 5]
      ((n * nb + a) * nb + c) ((m * nb + b) * nb + d) = arr ![n, m, a, b, c, d] := by
  have hnb : 0 < nb := by omega
  have hnw : 0 < nw := by omega
  rw [← h ![n, m, a, b, c, d] (by intro i; fin_cases i <;> simpa [shape6])]
  have s0 : min (nb * (nb * (nw * (nb * nb)))) (min (nb * (nw * (nb * nb))) (nw * (nb * nb)))
      = nw * (nb * nb) := groupStride_three _ _ _ (le_mul_pos hnb) (le_mul_pos hnb)
  have s1 : min (nb * nb) (min nb 1) = 1 := groupStride_three _ _ _ (le_mul_pos hnb) hnb
  simp [groupView, groupStride, strideOf, offset, Fin.sum_univ_succ, shape6, s0, s1]
  congr 1
  ring

/-- view of the middle factor in `scalar_product_PH` (`/repo/c++/triqs_tprf/linalg.cpp:185,202`): row
`(n, a, b)`, column `(n', c, d)`. -/
theorem groupView_M {F : Type*} (nw nb : ℕ) (mem : ℕ → F) (arr : (Fin 6 → ℕ) → F)
    (h : Stores (shape6 nw nb) (strideOf (shape6 nw nb) [0, 2, 3, 1, 4, 5]) mem arr)
    (n m a b c d : ℕ) (hn : n < nw) (hm : m < nw) (ha : a < nb) (hb : b < nb) (hc : c < nb)
    (hd : d < nb) :
    groupView (strideOf (shape6 nw nb) [0, 2, 3, 1, 4, 5]) mem [0, 2, 3] [1, 4, 5]
      ((n * nb + a) * nb + b) ((m * nb + c) * nb + d) = arr ![n, m, a, b, c, d] := by
  have hnb : 0 < nb := by omega
  have hnw : 0 < nw := by omega
  rw [← h ![n, m, a, b, c, d] (by intro i; fin_cases i <;> simpa [shape6])]
  have s0 : min (nb * (nb * (nw * (nb * nb)))) (min (nb * (nw * (nb * nb))) (nw * (nb * nb)))
      = nw * (nb * nb) := groupStride_three _ _ _ (le_mul_pos hnb) (le_mul_pos hnb)
  have s1 : min (nb * nb) (min nb 1) = 1 := groupStride_three _ _ _ (le_mul_pos hnb) hnb
  simp [groupView, groupStride, strideOf, offset, Fin.sum_univ_succ, shape6, s0, s1]
  congr 1
  ring

/-- shape of a triangle vertex `(n, a, b, c, d)` -/
def shape5 (nw nb : ℕ) : Fin 5 → ℕ := ![nw, nb, nb, nb, nb]

/-- view of the left factor in `scalar_product_PH` (`linalg.cpp:183,200`): row `(d, c)`, column
`(n, a, b)`. -/
theorem groupView_L {F : Type*} (nw nb : ℕ) (mem : ℕ → F) (arr : (Fin 5 → ℕ) → F)
    (h : Stores (shape5 nw nb) (strideOf (shape5 nw nb) [4, 3, 0, 1, 2]) mem arr)
    (n a b c d : ℕ) (hn : n < nw) (ha : a < nb) (hb : b < nb) (hc : c < nb) (hd : d < nb) :
    groupView (strideOf (shape5 nw nb) [4, 3, 0, 1, 2]) mem [4, 3] [0, 1, 2]
      (d * nb + c) ((n * nb + a) * nb + b) = arr ![n, a, b, c, d] := by
  have hnb : 0 < nb := by omega
  rw [← h ![n, a, b, c, d] (by intro i; fin_cases i <;> simpa [shape5])]
  have s0 : min (nb * (nw * (nb * nb))) (nw * (nb * nb)) = nw * (nb * nb) :=
    Nat.min_eq_right (le_mul_pos hnb)
  have s1 : min (nb * nb) (min nb 1) = 1 := groupStride_three _ _ _ (le_mul_pos hnb) hnb
  simp [groupView, groupStride, strideOf, offset, Fin.sum_univ_succ, shape5, s0, s1]
  congr 1
  ring

/-- view of the right factor in `scalar_product_PH` (`linalg.cpp:184,201`): row `(n, b, a)`, column
`(c, d)`. -/
theorem groupView_R {F : Type*} (nw nb : ℕ) (mem : ℕ → F) (arr : (Fin 5 → ℕ) → F)
    (h : Stores (shape5 nw nb) (strideOf (shape5 nw nb) [0, 2, 1, 3, 4]) mem arr)
    (n a b c d : ℕ) (hn : n < nw) (ha : a < nb) (hb : b < nb) (hc : c < nb) (hd : d < nb) :
    groupView (strideOf (shape5 nw nb) [0, 2, 1, 3, 4]) mem [0, 2, 1] [3, 4]
      ((n * nb + b) * nb + a) (c * nb + d) = arr ![n, a, b, c, d] := by
  have hnb : 0 < nb := by omega
  rw [← h ![n, a, b, c, d] (by intro i; fin_cases i <;> simpa [shape5])]
  have s0 : min (nb * (nb * nb)) (min (nb * nb) nb) = nb :=
    groupStride_three _ _ _ (le_mul_pos hnb) (le_mul_pos hnb)
  have s1 : min nb 1 = 1 := Nat.min_eq_right hnb
  simp [groupView, groupStride, strideOf, offset, Fin.sum_univ_succ, shape5, s0, s1]
  congr 1
  ring

end Verif.Nda
