import Mathlib.Algebra.BigOperators.Fin
import Mathlib.Data.List.MinMax

/-!
# Strided arrays and `group_indices_view`

`group_indices_view` belongs to the external library `nda`; it is used in
`/repo/c++/triqs_tprf/channel_grouping.hpp:83-86`, `/repo/c++/triqs_tprf/linalg.cpp:180-207`,
`/repo/c++/triqs_tprf/lattice/rpa.cpp:40-55`,
`/repo/c++/triqs_tprf/lattice/dynamical_screened_interaction.cpp:69-71,110-111` and
`/repo/c++/triqs_tprf/lattice/eliashberg.cpp:338-352`. It returns a *view* of the same memory with
one stride per group: the extent of a group is the product of the extents of its axes and the stride
is the smallest stride of its axes. The order in which the axes are listed inside a group therefore
has no influence on the view; only the memory order matters. (`no_strided_view_for_swapped_pair` in
`Verif/Nda/Lemmas.lean`: no single stride can realise the swapped order on a C-ordered array.)
-/

namespace Verif.Nda

variable {R : ℕ}

/-- Strides of a contiguous array of the given shape whose axes are stored in the order `order`
(slowest first): `contiguous_layout_with_stride_order<encode(order)>`, see
`/repo/c++/triqs_tprf/channel_grouping.hpp:80`, `/repo/c++/triqs_tprf/linalg.cpp:182-185`. -/
def strideOf (shape : Fin R → ℕ) : List (Fin R) → Fin R → ℕ
  | [], _ => 0
  | x :: xs, a => if a = x then (xs.map shape).prod else strideOf shape xs a

/-- memory offset of the element with multi-index `idx` -/
def offset (strides idx : Fin R → ℕ) : ℕ := ∑ a, idx a * strides a

/-- stride of a group of axes: the smallest stride in the group -/
def groupStride (strides : Fin R → ℕ) : List (Fin R) → ℕ
  | [] => 0
  | [a] => strides a
  | a :: b :: l => min (strides a) (groupStride strides (b :: l))

/-- extent of a group of axes -/
def groupExtent (shape : Fin R → ℕ) (g : List (Fin R)) : ℕ := (g.map shape).prod

/-- `group_indices_view(arr, g0, g1)`: element `(r, c)` of the rank two view of the memory `mem`. -/
def groupView {F : Type*} (strides : Fin R → ℕ) (mem : ℕ → F) (g0 g1 : List (Fin R)) (r c : ℕ) : F :=
  mem (r * groupStride strides g0 + c * groupStride strides g1)

/-- The memory `mem` stores the array `arr` (a function of the multi-index) in the given layout. -/
def Stores {F : Type*} (shape strides : Fin R → ℕ) (mem : ℕ → F) (arr : (Fin R → ℕ) → F) : Prop :=
  ∀ idx : Fin R → ℕ, (∀ a, idx a < shape a) → mem (offset strides idx) = arr idx

end Verif.Nda
