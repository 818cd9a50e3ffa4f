import Verif.Rpa.Model
import Verif.Operators.Model
import Mathlib.Tactic.IntervalCases

/-!
# Model of `python/triqs_tprf/rpa_tensor.py` (interaction and susceptibility tensors)

Composite (spin, orbital) axes have length `2 * n`. `slot` places a spin and an orbital on such an
axis. Green's function meshes are dropped: the functions act on each mesh point separately.
-/

noncomputable section

namespace Verif.RpaTensor

open Verif.Rpa (T4)
open Verif.Operators (Err)

variable {n : ℕ}

/-! ## Composite axes -/

theorem slot_fast_lt (s : Fin 2) (a : Fin n) : 2 * (a : ℕ) + s < 2 * n := by omega

theorem slot_slow_lt (s : Fin 2) (a : Fin n) : n * (s : ℕ) + a < 2 * n := by
  have := a.2
  rcases s with ⟨s, hs⟩
  interval_cases s <;> simp <;> omega

/-- Position of (spin `s`, orbital `a`). Spin fast: `slice(None, None, 2)` for up and
`slice(1, None, 2)` for down; spin slow: `slice(norb)` for up and `slice(norb, None)` for down
(rpa_tensor.py:283-289, 327-333). The spin slow case is also the C-order `reshape` of an axis of
length `2 n` to `(2, n)` (rpa_tensor.py:137-141, 192-193). -/
def slot (fast : Bool) (s : Fin 2) (a : Fin n) : Fin (2 * n) :=
  if fast then ⟨2 * a + s, slot_fast_lt s a⟩ else ⟨n * s + a, slot_slow_lt s a⟩

/-- Spin of a position. -/
def spinOf (fast : Bool) (i : Fin (2 * n)) : Fin 2 :=
  if fast then ⟨i % 2, by omega⟩
  else ⟨i / n, by
    have hn : 0 < n := by have := i.2; omega
    exact (Nat.div_lt_iff_lt_mul hn).mpr i.2⟩

/-- Orbital of a position. -/
def orbOf (fast : Bool) (i : Fin (2 * n)) : Fin n :=
  if fast then ⟨i / 2, by have := i.2; omega⟩
  else ⟨i % n, Nat.mod_lt _ (by have := i.2; omega)⟩

/-- `X[s1, s2, s3, s4]`, the block of a spin first view. -/
def block (fast : Bool) (X : T4 (Fin (2 * n)) ℂ) (s t u v : Fin 2) : T4 (Fin n) ℂ :=
  fun a b c d => X (slot fast s a) (slot fast t b) (slot fast u c) (slot fast v d)

/-- `X[s1, s2, s3, s4] = V` through slices of the four axes. -/
def setBlock (fast : Bool) (X : T4 (Fin (2 * n)) ℂ) (s t u v : Fin 2) (V : T4 (Fin n) ℂ) :
    T4 (Fin (2 * n)) ℂ := fun i j k l =>
  if spinOf fast i = s ∧ spinOf fast j = t ∧ spinOf fast k = u ∧ spinOf fast l = v then
    V (orbOf fast i) (orbOf fast j) (orbOf fast k) (orbOf fast l)
  else X i j k l

/-! ## Interaction tensors -/

/-- `kanamori_charge_and_spin_quartic_interaction_tensors` (rpa_tensor.py:87-120), one element
`[a, abar, b, bbar]`: four consecutive `if`s. -/
def kanamoriElement (U Up J Jp : ℂ) (a abar b bbar : Fin n) : ℂ × ℂ :=
  let r : ℂ × ℂ := (0, 0)
  let r := if a = abar ∧ a = b ∧ b = bbar then (U, U) else r
  let r := if a = bbar ∧ a ≠ b ∧ abar = b then (-Up + 2 * J, Up) else r
  let r := if a = abar ∧ a ≠ b ∧ b = bbar then (2 * Up - J, J) else r
  if a = b ∧ a ≠ abar ∧ abar = bbar then (Jp, Jp) else r

/-- the charge tensor of `kanamori_charge_and_spin_quartic_interaction_tensors` -/
def kanamoriCharge (n : ℕ) (U Up J Jp : ℂ) : T4 (Fin n) ℂ :=
  fun a abar b bbar => (kanamoriElement U Up J Jp a abar b bbar).1

/-- the spin tensor of `kanamori_charge_and_spin_quartic_interaction_tensors` -/
def kanamoriSpin (n : ℕ) (U Up J Jp : ℂ) : T4 (Fin n) ℂ :=
  fun a abar b bbar => (kanamoriElement U Up J Jp a abar b bbar).2

/-- `get_rpa_us_tensor` (matrix_rpa.py:79-109). -/
def rpaUs (n : ℕ) (U Up J Jp : ℂ) : T4 (Fin n) ℂ := fun a b c d =>
  if a = b ∧ b = c ∧ c = d then U
  else if a = c ∧ c ≠ b ∧ b = d then Up
  else if a = b ∧ b ≠ c ∧ c = d then J
  else if a = d ∧ d ≠ b ∧ b = c then Jp
  else 0

/-- `get_rpa_uc_tensor` (matrix_rpa.py:112-142). -/
def rpaUc (n : ℕ) (U Up J Jp : ℂ) : T4 (Fin n) ℂ := fun a b c d =>
  if a = b ∧ b = c ∧ c = d then U
  else if a = c ∧ c ≠ b ∧ b = d then -Up + 2 * J
  else if a = b ∧ b ≠ c ∧ c = d then 2 * Up - J
  else if a = d ∧ d ≠ b ∧ b = c then Jp
  else 0

/-- `np.testing.assert_array_almost_equal(V, zeros)`: six decimals. -/
def AlmostZero (V : T4 (Fin n) ℂ) : Prop := ∀ a b c d, ‖V a b c d‖ < 15 / 10000000

/-- The ten spin blocks that have to vanish (rpa_tensor.py:147-158 and 336-347). -/
def nonConserving : List (Fin 2 × Fin 2 × Fin 2 × Fin 2) :=
  [(0, 0, 0, 1), (0, 0, 1, 0), (0, 1, 0, 0), (1, 0, 0, 0),
   (1, 1, 1, 0), (1, 1, 0, 1), (1, 0, 1, 1), (0, 1, 1, 1),
   (1, 0, 1, 0), (0, 1, 0, 1)]

open Classical in
/-- `split_quartic_tensor_in_charge_and_spin` (rpa_tensor.py:123-172), spin slow. -/
def splitQuartic (U4 : T4 (Fin (2 * n)) ℂ) : Except Err (T4 (Fin n) ℂ × T4 (Fin n) ℂ) :=
  let U8 := block false U4
  if ∀ q ∈ nonConserving, AlmostZero (U8 q.1 q.2.1 q.2.2.1 q.2.2.2) then
    .ok (-U8 0 0 0 0 - U8 0 0 1 1, U8 0 0 0 0 - U8 0 0 1 1)
  else .error .assertion

/-- one pass of the loop rpa_tensor.py:185-190 -/
def quarticStep (Uc Us : T4 (Fin n) ℂ) (U8 : T4 (Fin (2 * n)) ℂ) (s : Fin 2 × Fin 2) :
    T4 (Fin (2 * n)) ℂ :=
  let Uuu : T4 (Fin n) ℂ := fun a b c d => -0.5 * (Uc a b c d - Us a b c d)
  let Uud : T4 (Fin n) ℂ := fun a b c d => 0.5 * (Uc a b c d + Us a b c d)
  if s.1 = s.2 then setBlock false U8 s.1 s.1 s.1 s.1 Uuu
  else
    let V := setBlock false U8 s.1 s.1 s.2 s.2 (-Uud)
    setBlock false V s.1 s.2 s.2 s.1 Us

/-- `quartic_tensor_from_charge_and_spin` (rpa_tensor.py:175-195); the spin first array and its
transposed and reshaped version are the same function of (spin, orbital) positions. -/
def quarticFromChargeSpin (Uc Us : T4 (Fin n) ℂ) : T4 (Fin (2 * n)) ℂ :=
  [(0, 0), (0, 1), (1, 0), (1, 1)].foldl (quarticStep Uc Us) fun _ _ _ _ => 0

/-- `kanamori_quartic_tensor` (rpa_tensor.py:198-233). -/
def kanamoriQuartic (n : ℕ) (U Up J Jp : ℂ) : T4 (Fin (2 * n)) ℂ :=
  quarticFromChargeSpin (kanamoriCharge n U Up J Jp) (kanamoriSpin n U Up J Jp)

/-! ## Susceptibilities -/

/-- `general_susceptibility_from_charge_and_spin` (rpa_tensor.py:259-299). -/
def generalFromChargeSpin (fast : Bool) (chiC chiS : T4 (Fin n) ℂ) : T4 (Fin (2 * n)) ℂ :=
  let uu : T4 (Fin n) ℂ := fun a b c d => 0.5 * (chiC a b c d + chiS a b c d)
  let ud : T4 (Fin n) ℂ := fun a b c d => 0.5 * (chiC a b c d - chiS a b c d)
  let X : T4 (Fin (2 * n)) ℂ := fun _ _ _ _ => 0
  let X := setBlock fast X 0 0 0 0 uu
  let X := setBlock fast X 1 1 1 1 uu
  let X := setBlock fast X 0 0 1 1 ud
  let X := setBlock fast X 1 1 0 0 ud
  let X := setBlock fast X 0 1 1 0 chiS
  setBlock fast X 1 0 0 1 chiS

open Classical in
/-- `charge_and_spin_susceptibility_from_general` (rpa_tensor.py:302-356). `assert_allclose(x, 0)`
has relative tolerance only, so it demands an exact zero. -/
def chargeSpinFromGeneral (fast check : Bool) (X : T4 (Fin (2 * n)) ℂ) :
    Except Err (T4 (Fin n) ℂ × T4 (Fin n) ℂ) :=
  if check = true ∧ ¬ ∀ q ∈ nonConserving, block fast X q.1 q.2.1 q.2.2.1 q.2.2.2 = 0 then
    .error .assertion
  else
    let uu := block fast X 0 0 0 0
    let ud := block fast X 0 0 1 1
    .ok (uu + ud, uu - ud)

/-- `lose_spin_degree_of_freedom` (rpa_tensor.py:236-256; matrix_rpa.py:51-76 is the same on
arrays). `r` is the rank of the target space. -/
def loseSpin (fast : Bool) {r : ℕ} (gf : (Fin r → Fin (2 * n)) → ℂ) : (Fin r → Fin n) → ℂ :=
  fun idx => gf fun p => if fast then slot true 0 (idx p) else slot false 1 (idx p)

end Verif.RpaTensor
