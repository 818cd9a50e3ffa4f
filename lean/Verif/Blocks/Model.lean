import Mathlib.Analysis.Complex.Basic
import Mathlib.Data.List.Basic

/-!
# Helpers for block Green's functions in `python/triqs_tprf/utilities.py`

A block Green's function is the list of its blocks in the order of its indices. All blocks have the same number `d` of axes (mesh and
target). The TRIQS functions `fit_legendre` and `enforce_discontinuity` are not part of the repository: the first is arbitrary, the second is
the projection of the coefficients on functions with the given jump, along the weights `t` by which the coefficients enter the jump.
-/

noncomputable section

namespace Verif.Blocks

/-- `g.data` of a block: shape and elements -/
structure Data (d : ℕ) where
  /-- `g.data.shape` -/
  shape : Fin d → ℕ
  /-- elements, meaningful inside the shape -/
  val : (Fin d → ℕ) → ℂ

/-- numpy broadcasting in `data[bidx] = g.data.copy()` (utilities.py:90): axes of length one are repeated, other differences of the shapes
raise `ValueError` -/
def broadcast {d : ℕ} (shape : Fin d → ℕ) (g : Data d) : Except String ((Fin d → ℕ) → ℂ) :=
  if ∀ i, g.shape i = shape i ∨ g.shape i = 1 then .ok fun idx => g.val fun i => if g.shape i = 1 then 0 else idx i
  else .error "ValueError: could not broadcast input array"

/-- the loop over the blocks (utilities.py:89-90) -/
def fill {d : ℕ} (shape : Fin d → ℕ) : List (Data d) → Except String (List ((Fin d → ℕ) → ℂ))
  | [] => .ok []
  | g :: gs =>
    match broadcast shape g with
    | .error e => .error e
    | .ok row =>
      match fill shape gs with
      | .error e => .error e
      | .ok rows => .ok (row :: rows)

/-- `BlockGf_data` (utilities.py:85-92): the shape of one block, taken from the first one, and the rows -/
def blockGfData {d : ℕ} (G : List (Data d)) : Except String ((Fin d → ℕ) × List ((Fin d → ℕ) → ℂ)) :=
  match G with
  | [] => .error "StopIteration"
  | g :: _ =>
    match fill g.shape G with
    | .error e => .error e
    | .ok rows => .ok (g.shape, rows)

/-- `g_l.data[:] *= (np.abs(g_l.data) > G_l_cut)` (utilities.py:122) for one orbital and `L` coefficients -/
def cutOff {L : ℕ} (cut : ℝ) (g : Fin L → ℂ) : Fin L → ℂ := fun l => if cut < ‖g l‖ then g l else 0

/-- jump of the function with Legendre coefficients `g` -/
def jump {L : ℕ} (t : Fin L → ℝ) (g : Fin L → ℂ) : ℂ := ∑ l, (t l : ℂ) * g l

/-- TRIQS `enforce_discontinuity(g_l, [[1.]])`, called in utilities.py:123 -/
def enforceDiscontinuity {L : ℕ} (t : Fin L → ℝ) (g : Fin L → ℂ) : Fin L → ℂ := fun l =>
  g l + (1 - jump t g) * (t l : ℂ) / ((∑ k, t k ^ 2 : ℝ) : ℂ)

/-- `legendre_filter` (utilities.py:95-127), blocks with one orbital -/
def legendreFilter {B : Type} {L : ℕ} (fit : B → Fin L → ℂ) (t : Fin L → ℝ) (cut : ℝ) (G : List B) : List (Fin L → ℂ) :=
  G.map fun g => enforceDiscontinuity t (cutOff cut (fit g))

end Verif.Blocks
