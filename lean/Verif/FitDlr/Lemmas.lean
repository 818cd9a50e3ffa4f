import Verif.FitDlr.Model
import Verif.Symmetries.Lemmas
import Mathlib.Algebra.BigOperators.Intervals
import Mathlib.Data.List.GetD

/-!
# Helper lemmas for the parametrisations of the constrained fit
-/

namespace Verif.FitDlr

open Verif.Symmetries (triu tril mem_triu mem_tril)

theorem length_filter_lt (n i : ℕ) : ((List.range n).filter fun j => i < j).length = n - 1 - i := by
  induction n with
  | zero => simp
  | succ n ih =>
    rw [List.range_succ, List.filter_append, List.length_append, ih]
    by_cases h : i < n
    · rw [List.filter_cons_of_pos (by simpa using h)]
      simp; omega
    · rw [List.filter_cons_of_neg (by simpa using h)]
      simp; omega

theorem length_triu (n : ℕ) : (triu n).length = n * (n - 1) / 2 := by
  unfold triu
  rw [List.length_flatMap]
  simp only [List.length_map, length_filter_lt]
  have h : ∀ k, ((List.range k).map fun i => n - 1 - i).sum = ∑ i ∈ Finset.range k, (n - 1 - i) := by
    intro k
    induction k with
    | zero => rfl
    | succ k ih => rw [List.range_succ, Finset.sum_range_succ, List.map_append, List.sum_append, ih]; simp
  rw [h, Finset.sum_range_reflect (fun i => i) n, Finset.sum_range_id]

theorem triu_nodup (n : ℕ) : (triu n).Nodup := by
  unfold triu
  rw [List.nodup_flatMap]
  refine ⟨fun i _ => ?_, ?_⟩
  · exact (List.nodup_range.filter _).map fun a b h => (Prod.mk.inj h).2
  · refine List.nodup_range.imp ?_
    intro a b hab
    simp only [Function.onFun, List.Disjoint, List.mem_map]
    rintro x ⟨_, _, rfl⟩ ⟨_, _, h⟩
    exact hab (Prod.mk.inj h).1.symm

theorem tril_nodup (n : ℕ) : (tril n).Nodup := by
  unfold tril
  rw [List.nodup_flatMap]
  refine ⟨fun i _ => ?_, ?_⟩
  · exact (List.nodup_range.filter _).map fun a b h => (Prod.mk.inj h).2
  · refine List.nodup_range.imp ?_
    intro a b hab
    simp only [Function.onFun, List.Disjoint, List.mem_map]
    rintro x ⟨_, _, rfl⟩ ⟨_, _, h⟩
    exact hab (Prod.mk.inj h).1.symm

theorem diag_nodup (n : ℕ) : (diag n).Nodup :=
  List.nodup_range.map fun _ _ h => (Prod.mk.inj h).1

theorem mem_diag (n : ℕ) (u : ℕ × ℕ) : u ∈ diag n ↔ u.1 < n ∧ u.1 = u.2 := by
  obtain ⟨i, j⟩ := u
  simp only [diag, List.mem_map, List.mem_range, Prod.mk.injEq]
  constructor
  · rintro ⟨k, hk, rfl, rfl⟩; exact ⟨hk, rfl⟩
  · rintro ⟨hi, rfl⟩; exact ⟨i, hi, rfl, rfl⟩

theorem length_diag (n : ℕ) : (diag n).length = n := by simp [diag]

theorem idxOf_getD {l : List (ℕ × ℕ)} (hl : l.Nodup) {t : ℕ} (ht : t < l.length) (d : ℕ × ℕ) :
    l.idxOf (l.getD t d) = t := by
  rw [List.getD_eq_getElem l d ht, hl.idxOf_getElem]

theorem getD_idxOf {l : List (ℕ × ℕ)} {u : ℕ × ℕ} (hu : u ∈ l) (d : ℕ × ℕ) :
    l.getD (l.idxOf u) d = u := by
  rw [List.getD_eq_getElem l d (List.idxOf_lt_length_of_mem hu), List.getElem_idxOf]

theorem getD_mem {l : List (ℕ × ℕ)} {t : ℕ} (ht : t < l.length) (d : ℕ × ℕ) : l.getD t d ∈ l := by
  rw [List.getD_eq_getElem l d ht]
  exact List.getElem_mem ht

/-- reading back what was written -/
theorem gather_get {nx : ℕ} {idx : List (ℕ × ℕ)} {g : Arr} {f : ℕ → ℂ}
    (hg : ∀ x < nx, ∀ t < idx.length, let u := idx.getD t (0, 0)
      g x u.1 u.2 = f (x * idx.length + t)) (m : ℕ) (hm : m < nx * idx.length) :
    (gather nx idx g).get m = f m := by
  have hpos : 0 < idx.length := by
    rcases Nat.eq_zero_or_pos idx.length with h | h
    · rw [h] at hm; omega
    · exact h
  have hx : m / idx.length < nx := by rwa [Nat.div_lt_iff_lt_mul hpos]
  have := hg (m / idx.length) hx (m % idx.length) (Nat.mod_lt _ hpos)
  simp only [gather]
  rw [this]
  congr 1
  rw [mul_comm]
  exact Nat.div_add_mod m idx.length

theorem reshape_ok {v : Vec} {nx n : ℕ} (h : v.len = nx * n) :
    reshape v nx n = .ok fun x t => v.get (x * n + t) := if_pos h

theorem reshape_err {v : Vec} {nx n : ℕ} (h : v.len ≠ nx * n) :
    reshape v nx n = .error "cannot reshape array" := if_neg h

end Verif.FitDlr
