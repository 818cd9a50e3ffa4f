import Verif.Parallel.Model
import Mathlib.Tactic.Ring
import Mathlib.Tactic.Linarith
import Mathlib.Algebra.BigOperators.Group.List.Basic

namespace Verif.Parallel

open Finset

/-- the start of the chunk of rank `r`; `chunkRange = (start r, start (r+1))` -/
def chunkStart (total n r : ℕ) : ℕ := r * (total / n) + min r (total % n)

theorem chunkRange_eq (total n r : ℕ) :
    chunkRange total n r = (chunkStart total n r, chunkStart total n (r + 1)) := by
  have hmod : total - n * (total / n) = total % n := by
    have := Nat.div_add_mod total n
    omega
  unfold chunkRange chunkStart
  simp only [hmod]
  by_cases h : r < total % n
  · have h1 : min r (total % n) = r := by omega
    have h2 : min (r + 1) (total % n) = r + 1 := by omega
    rw [if_pos h, h1, h2]
    ext <;> simp <;> ring
  · have h1 : min r (total % n) = total % n := by omega
    have h2 : min (r + 1) (total % n) = total % n := by omega
    rw [if_neg h, h1, h2]
    ext <;> simp <;> ring

theorem chunkStart_zero (total n : ℕ) : chunkStart total n 0 = 0 := by
  simp [chunkStart]

theorem chunkStart_last (total n : ℕ) (hn : 0 < n) : chunkStart total n n = total := by
  have h := Nat.div_add_mod total n
  have h2 : total % n < n := Nat.mod_lt _ hn
  unfold chunkStart
  have : min n (total % n) = total % n := by omega
  rw [this]; exact h

theorem chunkStart_mono (total n : ℕ) : Monotone (chunkStart total n) := by
  intro a b hab
  unfold chunkStart
  have : a * (total / n) ≤ b * (total / n) := Nat.mul_le_mul_right _ hab
  omega

theorem copyLoop_eq_take {α : Type*} (s : ℕ) (l : List α) : copyLoop s l = l.take s := by
  induction s generalizing l with
  | zero => simp [copyLoop]
  | succ s ih => cases l <;> simp [copyLoop, ih]

theorem mpiView_eq {α : Type*} (mesh : List α) (n r : ℕ) :
    mpiView mesh n r = (mesh.take (chunkStart mesh.length n (r + 1))).drop
      (chunkStart mesh.length n r) := by
  unfold mpiView
  rw [chunkRange_eq]
  simp only [copyLoop_eq_take]
  rw [List.drop_take]

theorem flatMap_mpiView_prefix {α : Type*} (mesh : List α) (n m : ℕ) :
    (List.range m).flatMap (mpiView mesh n) = mesh.take (chunkStart mesh.length n m) := by
  induction m with
  | zero => simp [chunkStart_zero]
  | succ m ih =>
    rw [List.range_succ, List.flatMap_append, ih]
    simp only [List.flatMap_cons, List.flatMap_nil, List.append_nil]
    rw [mpiView_eq]
    have h : chunkStart mesh.length n m ≤ chunkStart mesh.length n (m + 1) :=
      chunkStart_mono _ _ (Nat.le_succ m)
    conv_lhs =>
      rw [show mesh.take (chunkStart mesh.length n m) =
        (mesh.take (chunkStart mesh.length n (m + 1))).take (chunkStart mesh.length n m) by
          rw [List.take_take, min_eq_left h]]
    exact List.take_append_drop _ _

theorem rankAssign_apply {P M : Type*} [DecidableEq P] [Zero M] (arr : List P) (f : P → M)
    (init : P → M) (p : P) :
    arr.foldl (fun out p => Function.update out p (f p)) init p
      = if p ∈ arr then f p else init p := by
  induction arr generalizing init with
  | nil => simp
  | cons a l ih =>
    rw [List.foldl_cons, ih]
    by_cases hp : p ∈ l
    · simp [hp]
    · by_cases hpa : p = a
      · subst hpa; simp [hp]
      · simp [hp, hpa]

theorem rankAccumulate_apply {P C M : Type*} [AddCommMonoid M] (arr : List P) (f : P → C → M)
    (init : C → M) (c : C) :
    arr.foldl (fun out p => fun c => out c + f p c) init c
      = init c + (arr.map (fun p => f p c)).sum := by
  induction arr generalizing init with
  | nil => simp
  | cons a l ih => rw [List.foldl_cons, ih]; simp [add_assoc]

theorem sum_range_flatMap {α M : Type*} [AddCommMonoid M] (n : ℕ) (v : ℕ → List α) (g : α → M) :
    ∑ r ∈ range n, ((v r).map g).sum = (((List.range n).flatMap v).map g).sum := by
  induction n with
  | zero => simp
  | succ n ih => rw [Finset.sum_range_succ, ih, List.range_succ]; simp

/-! ### commuting micro steps -/

variable {T C M : Type*} [DecidableEq T] [DecidableEq C] [Add M]

theorem exec_comm (s : State T C M) (a b : T × Step C M) (ht : a.1 ≠ b.1)
    (hc : a.2.cell ≠ b.2.cell) : exec (exec s a) b = exec (exec s b) a := by
  obtain ⟨t, a⟩ := a
  obtain ⟨u, b⟩ := b
  cases a <;> cases b <;> simp_all [exec, Step.cell] <;>
    first
    | (rw [Function.update_comm]; tauto)
    | (rw [Function.update_of_ne]; tauto)

end Verif.Parallel
