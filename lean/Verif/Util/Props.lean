import Verif.Util.Model
import Verif.Parallel.Props
import Mathlib.Tactic.Linarith
import Mathlib.Tactic.Positivity
import Mathlib.Tactic.FieldSimp
import Mathlib.Tactic.NormNum
import Mathlib.Tactic.Ring
import Mathlib.Tactic.Abel
import Mathlib.Algebra.BigOperators.Fin
import Mathlib.Logic.Equiv.Fin.Basic

/-!
# C19, C56, C57, C69, C70
-/

noncomputable section

namespace Verif.Util

open Verif.Parallel

/-! ## C19 -/

/-- C19: for any tail functional and any numbers of ranks, adding the parts gives back the input on the mesh. -/
theorem C19_split_add {W K E : Type*} [DecidableEq K] [DecidableEq W] [AddCommGroup E] (r1 r2 : ℕ)
    (h1 : 0 < r1) (h2 : 0 < r2) (kmesh : List K) (hk : kmesh.Nodup) (mesh : List (W × K)) (hm : mesh.Nodup)
    (tail0 : (W → E) → E) (chi : W → K → E) (w : W) (k : K) (hwk : (w, k) ∈ mesh) (hkm : k ∈ kmesh) :
    addDynStat r2 mesh (split r1 kmesh tail0 chi).1 (split r1 kmesh tail0 chi).2 (w, k) = chi w k := by
  rw [addDynStat, C02_distributedAssign r2 h2 _ hm, if_pos hwk]
  simp only [split]
  rw [C02_distributedAssign r1 h1 _ hk, if_pos hkm, C02_distributedAssign r1 h1 _ hk, if_pos hkm]
  abel

/-- C19: the split parts are the tail value and the remainder. -/
theorem C19_parts {W K E : Type*} [DecidableEq K] [AddCommGroup E] (r1 : ℕ) (h1 : 0 < r1) (kmesh : List K)
    (hk : kmesh.Nodup) (tail0 : (W → E) → E) (chi : W → K → E) (w : W) (k : K) (hkm : k ∈ kmesh) :
    (split r1 kmesh tail0 chi).2 k = tail0 (fun w => chi w k) ∧
    (split r1 kmesh tail0 chi).1 w k = chi w k - tail0 (fun w => chi w k) := by
  simp only [split]
  rw [C02_distributedAssign r1 h1 _ hk, if_pos hkm, C02_distributedAssign r1 h1 _ hk, if_pos hkm]
  exact ⟨rfl, rfl⟩

/-- a case: two momenta, three frequencies, the tail is the value at the last frequency -/
example : addDynStat 3 [(0, 0), (1, 0), (2, 0), (0, 1), (1, 1), (2, 1)]
    (split 2 [0, 1] (fun f : ℕ → ℤ => f 2) (fun w k => (w : ℤ) + 10 * (k : ℕ))).1
    (split 2 [0, 1] (fun f : ℕ → ℤ => f 2) (fun w k => (w : ℤ) + 10 * (k : ℕ))).2 (1, 1) = 11 :=
  C19_split_add 2 3 (by decide) (by decide) [0, 1] (by decide) _ (by decide) _ _ 1 1 (by decide) (by decide)

/-! ## C56 -/

theorem npAssign_eq {α : Type*} {m : ℕ} {l : List α} (h : l.length = m) : npAssign m l = some l := by
  unfold npAssign; rw [if_pos h]

theorem npAssign_single {α : Type*} {m : ℕ} (x : α) (h : m ≠ 1) :
    npAssign m [x] = some (List.replicate m x) := by
  unfold npAssign; rw [if_neg (by simpa using h.symm)]

theorem npAssign_none {α : Type*} {m : ℕ} {l : List α} (h : l.length ≠ m) (h1 : l.length ≠ 1) :
    npAssign m l = none := by
  unfold npAssign
  rw [if_neg h]
  match l, h1 with
  | [], _ => rfl
  | [x], h1 => simp at h1
  | _ :: _ :: _, _ => rfl

theorem npSlice_inside {α : Type*} (l : List α) (s e : ℕ) (hse : s ≤ e) (he : e ≤ l.length) :
    npSlice s e l = (l.drop s).take (e - s) := by
  simp only [npSlice]
  have h1 : ¬ ((s : ℤ) < 0) := by omega
  have h2 : ¬ ((e : ℤ) < 0) := by omega
  rw [if_neg h1, if_neg h2, min_eq_left (by omega), min_eq_left (by omega)]
  congr 1
  omega

/-- C56: on an axis with `2N` fermionic frequencies (index `-N .. N-1` at positions `0 .. 2N-1`) a window
`nwf ≤ N` is accepted and output position `j`, frequency `j - nwf`, holds the input at that frequency. -/
theorem C56_wnk_window {α : Type*} (l : List α) (N : ℕ) (hl : l.length = 2 * N) (nwf : ℕ) (h : nwf ≤ N) :
    ∃ out, windowWnk l nwf = some out ∧ out.length = 2 * nwf ∧
      ∀ f : ℤ, -(nwf : ℤ) ≤ f → f < nwf → out[(f + nwf).toNat]? = l[(f + N).toNat]? := by
  have hn : l.length / 2 = N := by omega
  have hs : ((l.length / 2 : ℕ) : ℤ) - nwf = ((N - nwf : ℕ) : ℤ) := by omega
  have he : ((l.length / 2 : ℕ) : ℤ) + nwf = ((N + nwf : ℕ) : ℤ) := by omega
  have hlen : (npSlice ((N - nwf : ℕ) : ℤ) ((N + nwf : ℕ) : ℤ) l).length = 2 * nwf := by
    rw [npSlice_inside l _ _ (by omega) (by omega)]
    simp only [List.length_take, List.length_drop]
    omega
  refine ⟨npSlice ((N - nwf : ℕ) : ℤ) ((N + nwf : ℕ) : ℤ) l, ?_, hlen, ?_⟩
  · simp only [windowWnk]
    rw [hs, he, npAssign_eq hlen]
  · intro f h1 h2
    rw [npSlice_inside l _ _ (by omega) (by omega), List.getElem?_take, if_pos (by omega), List.getElem?_drop]
    congr 1
    omega

example : windowWnk [(-3 : ℤ), -2, -1, 0, 1, 2] 2 = some [-2, -1, 0, 1] := by decide

theorem npSlice_over {α : Type*} (l : List α) (N : ℕ) (hl : l.length = 2 * N) (nwf : ℕ) (h : N < nwf) :
    (npSlice ((N : ℤ) - nwf) ((N : ℤ) + nwf) l) = l.drop (3 * N - nwf) := by
  simp only [npSlice]
  have h1 : (N : ℤ) - nwf < 0 := by omega
  have h2 : ¬ ((N : ℤ) + nwf < 0) := by omega
  have h3 : (l.length : ℤ) ≤ (N : ℤ) + nwf := by omega
  rw [if_pos h1, if_neg h2, min_eq_right h3]
  rw [List.take_of_length_le]
  · congr 1
    omega
  · rw [List.length_drop, hl]
    omega

/-- C56, what is refused: a window larger than the input is refused exactly when it is not larger by one. -/
theorem C56_wnk_refuses_partial {α : Type*} (l : List α) (N : ℕ) (hN : 0 < N) (hl : l.length = 2 * N) (nwf : ℕ)
    (h : N < nwf) : windowWnk l nwf = none ↔ nwf ≠ N + 1 := by
  have hn : l.length / 2 = N := by omega
  simp only [windowWnk]
  rw [hn, npSlice_over l N hl nwf h]
  have hlen : (l.drop (3 * N - nwf)).length = 2 * N - (3 * N - nwf) := by rw [List.length_drop, hl]
  constructor
  · intro hnone hcon
    have : (l.drop (3 * N - nwf)).length = 1 := by omega
    obtain ⟨x, hx⟩ := List.length_eq_one_iff.1 this
    rw [hx, npAssign_single x (by omega)] at hnone
    simp at hnone
  · intro hne
    exact npAssign_none (by omega) (by omega)

/-- C56 violated: a window larger by one is accepted and every frequency gets the value of the largest one. -/
theorem C56_wnk_window_violated {α : Type*} (l : List α) (N : ℕ) (hl : l.length = 2 * N) (x : α)
    (hlast : l[2 * N - 1]? = some x) (hN : 0 < N) :
    windowWnk l (N + 1) = some (List.replicate (2 * (N + 1)) x) := by
  have hn : l.length / 2 = N := by omega
  simp only [windowWnk]
  rw [hn, npSlice_over l N hl (N + 1) (by omega)]
  have : l.drop (3 * N - (N + 1)) = [x] := by
    have e1 : (l.drop (3 * N - (N + 1))).length = 1 := by rw [List.length_drop]; omega
    obtain ⟨y, hy⟩ := List.length_eq_one_iff.1 e1
    have : (l.drop (3 * N - (N + 1)))[0]? = some x := by
      rw [List.getElem?_drop, ← hlast]; congr 1; omega
    rw [hy] at this ⊢
    simpa using this
  rw [this, npAssign_single x (by omega)]

example : windowWnk [(-1 : ℤ), 0] 2 = some [0, 0, 0, 0] := by decide

/-- C56: the local routine keeps both windows and refuses larger ones. -/
theorem C56_G2_window {α : Type*} (g : List (List α)) (N : ℕ) (hl : g.length = 2 * N)
    (hrow : ∀ row ∈ g, row.length = 2 * N) (nwf : ℕ) :
    (nwf ≤ N → ∃ out, windowG2 g nwf = some out ∧ out.length = 2 * nwf ∧
      ∀ f f' : ℤ, -(nwf : ℤ) ≤ f → f < nwf → -(nwf : ℤ) ≤ f' → f' < nwf →
        (out[(f + nwf).toNat]?.bind fun row => row[(f' + nwf).toNat]?)
          = (g[(f + N).toNat]?.bind fun row => row[(f' + N).toNat]?)) ∧
    (N < nwf → windowG2 g nwf = none) := by
  have hn : g.length / 2 = N := by omega
  constructor
  · intro h
    have hs : ((N : ℕ) : ℤ) - nwf = ((N - nwf : ℕ) : ℤ) := by omega
    have he : ((N : ℕ) : ℤ) + nwf = ((N + nwf : ℕ) : ℤ) := by omega
    have hlenR : ∀ row ∈ g, (npSlice ((N - nwf : ℕ) : ℤ) ((N + nwf : ℕ) : ℤ) row).length = 2 * nwf := by
      intro row hr
      have := hrow row hr
      rw [npSlice_inside row _ _ (by omega) (by omega)]
      simp only [List.length_take, List.length_drop]
      omega
    have hlenG : (npSlice ((N - nwf : ℕ) : ℤ) ((N + nwf : ℕ) : ℤ) g).length = 2 * nwf := by
      rw [npSlice_inside g _ _ (by omega) (by omega)]
      simp only [List.length_take, List.length_drop]
      omega
    have hsub : ∀ row ∈ npSlice ((N - nwf : ℕ) : ℤ) ((N + nwf : ℕ) : ℤ) g, row ∈ g := by
      intro row hr
      rw [npSlice_inside g _ _ (by omega) (by omega)] at hr
      exact List.mem_of_mem_drop (List.mem_of_mem_take hr)
    have hmap : (((npSlice ((N - nwf : ℕ) : ℤ) ((N + nwf : ℕ) : ℤ) g).map fun row =>
        npAssign (2 * nwf) (npSlice ((N - nwf : ℕ) : ℤ) ((N + nwf : ℕ) : ℤ) row)).mapM id)
        = some ((npSlice ((N - nwf : ℕ) : ℤ) ((N + nwf : ℕ) : ℤ) g).map fun row =>
          npSlice ((N - nwf : ℕ) : ℤ) ((N + nwf : ℕ) : ℤ) row) := by
      have : ∀ L : List (List α), (∀ row ∈ L, row ∈ g) → ((L.map fun row =>
        npAssign (2 * nwf) (npSlice ((N - nwf : ℕ) : ℤ) ((N + nwf : ℕ) : ℤ) row)).mapM id)
        = some (L.map fun row => npSlice ((N - nwf : ℕ) : ℤ) ((N + nwf : ℕ) : ℤ) row) := by
        intro L
        induction L with
        | nil => intro _; rfl
        | cons r rs ih =>
          intro hL
          rw [List.map_cons, List.mapM_cons, ih (fun row hr => hL row (List.mem_cons_of_mem _ hr))]
          have := hlenR r (hL r (List.mem_cons_self))
          simp only [npAssign_eq this, id, List.map_cons]
          rfl
      exact this _ hsub
    refine ⟨(npSlice ((N - nwf : ℕ) : ℤ) ((N + nwf : ℕ) : ℤ) g).map fun row =>
          npSlice ((N - nwf : ℕ) : ℤ) ((N + nwf : ℕ) : ℤ) row, ?_, ?_, ?_⟩
    · simp only [windowG2]
      rw [hn, if_pos h, hs, he, hmap]
      simp only [Option.bind_some]
      rw [npAssign_eq (by rw [List.length_map]; exact hlenG)]
    · rw [List.length_map]; exact hlenG
    · intro f f' h1 h2 h3 h4
      rw [List.getElem?_map, npSlice_inside g _ _ (by omega) (by omega), List.getElem?_take, if_pos (by omega),
        List.getElem?_drop]
      have hidx : N - nwf + (f + (nwf : ℤ)).toNat = (f + (N : ℤ)).toNat := by omega
      rw [hidx]
      cases hg : g[(f + (N : ℤ)).toNat]? with
      | none => rfl
      | some row =>
        have hr : row ∈ g := List.mem_of_getElem? hg
        have := hrow row hr
        simp only [Option.map_some, Option.bind_some]
        rw [npSlice_inside row _ _ (by omega) (by omega), List.getElem?_take, if_pos (by omega),
          List.getElem?_drop]
        congr 1
        omega
  · intro h
    simp only [windowG2]
    rw [hn, if_neg (by omega)]

/-! ## C57 -/

/-- C57: round trips. -/
theorem C57_roundtrip (x : ℝ) :
    temperatureToBeta (betaToTemperature x) = x ∧ betaToTemperature (temperatureToBeta x) = x := by
  have hk : kelvinPerEv ≠ 0 := by unfold kelvinPerEv; norm_num
  constructor
  · simp only [temperatureToBeta, betaToTemperature]
    rw [mul_div_cancel_left₀ _ hk, one_div_one_div]
  · simp only [temperatureToBeta, betaToTemperature]
    rw [one_div_one_div, mul_div_cancel₀ _ hk]

/-- C57: strictly decreasing on positive arguments. -/
theorem C57_antitone (x y : ℝ) (hx : 0 < x) (hxy : x < y) :
    betaToTemperature y < betaToTemperature x ∧ temperatureToBeta y < temperatureToBeta x := by
  have hk : 0 < kelvinPerEv := by unfold kelvinPerEv; norm_num
  have hy : 0 < y := hx.trans hxy
  simp only [temperatureToBeta, betaToTemperature]
  constructor
  · exact mul_lt_mul_of_pos_left (one_div_lt_one_div_of_lt hx hxy) hk
  · apply one_div_lt_one_div_of_lt (by positivity)
    exact div_lt_div_of_pos_right hxy hk

/-- C57: units. The temperature in Kelvin times the Boltzmann constant (defining constants of the SI, in
electron volts per Kelvin) is the inverse of beta up to one part in a million. -/
theorem C57_units (x : ℝ) (hx : x ≠ 0) :
    |betaToTemperature x * (1.380649e-23 / 1.602176634e-19) * x - 1| ≤ 1 / 10 ^ 6 ∧
    |temperatureToBeta x * ((1.380649e-23 / 1.602176634e-19) * x) - 1| ≤ 1 / 10 ^ 6 := by
  constructor
  · have h : betaToTemperature x * (1.380649e-23 / 1.602176634e-19) * x
        = kelvinPerEv * (1.380649e-23 / 1.602176634e-19) := by
      simp only [betaToTemperature]
      field_simp
    rw [h, abs_le]
    unfold kelvinPerEv
    norm_num
  · have h : temperatureToBeta x * ((1.380649e-23 / 1.602176634e-19) * x)
        = kelvinPerEv * (1.380649e-23 / 1.602176634e-19) := by
      simp only [temperatureToBeta, one_div_div]
      field_simp
    rw [h, abs_le]
    unfold kelvinPerEv
    norm_num

/-! ## C69 -/

/-- an index inside a shape -/
def Inside (shape idx : List ℕ) : Prop := List.Forall₂ (fun i n => i < n) idx shape

theorem cIndices_length (shape : List ℕ) : (cIndices shape).length = shape.prod := by
  induction shape with
  | nil => rfl
  | cons n ns ih =>
    simp only [cIndices, List.length_flatMap, List.length_map, ih, List.prod_cons]
    simp

theorem flatMap_getElem? {β : Type*} (f : ℕ → List β) (m : ℕ) (n : ℕ) (hf : ∀ i < n, (f i).length = m)
    (i : ℕ) (hi : i < n) (j : ℕ) (hj : j < m) :
    ((List.range n).flatMap f)[i * m + j]? = (f i)[j]? := by
  induction n with
  | zero => omega
  | succ n ih =>
    rw [List.range_succ, List.flatMap_append]
    have hlen : ((List.range n).flatMap f).length = n * m := by
      rw [List.length_flatMap]
      rw [List.map_congr_left (g := fun _ => m) (fun a ha => hf a (by have := List.mem_range.1 ha; omega))]
      simp
    rcases Nat.lt_succ_iff_lt_or_eq.1 hi with h | h
    · have hle : (i + 1) * m ≤ n * m := Nat.mul_le_mul_right m h
      rw [List.getElem?_append_left (by rw [hlen]; rw [Nat.add_mul, Nat.one_mul] at hle; omega)]
      exact ih (fun i hi => hf i (by omega)) h
    · subst h
      rw [List.getElem?_append_right (by rw [hlen]; omega), hlen, Nat.add_sub_cancel_left]
      simp

/-- C-ordering: the entry at position `ravel` is the index -/
theorem cIndices_ravel (shape idx : List ℕ) (h : Inside shape idx) :
    (cIndices shape)[ravel shape idx]? = some idx ∧ ravel shape idx < shape.prod := by
  induction h with
  | nil => exact ⟨rfl, by simp [ravel]⟩
  | @cons i n is ns hi _ ih =>
    obtain ⟨h1, h2⟩ := ih
    refine ⟨?_, ?_⟩
    · simp only [cIndices, ravel]
      rw [flatMap_getElem? _ ns.prod n (fun i _ => by rw [List.length_map, cIndices_length]) i hi _ h2,
        List.getElem?_map, h1]
      rfl
    · simp only [ravel, List.prod_cons]
      calc i * ns.prod + ravel ns is < i * ns.prod + ns.prod := by omega
        _ = (i + 1) * ns.prod := by ring
        _ ≤ n * ns.prod := Nat.mul_le_mul_right _ hi

/-- C69: shape and value of the extension: at every index of the extended mesh the input at the index folded
back periodically. -/
theorem C69_periodic {α : Type*} [Inhabited α] (values : List α) (nk idx : List ℕ)
    (hin : Inside (nk.map (· + 1)) idx) :
    (extendData values nk).length = (nk.map (· + 1)).prod ∧
    (extendData values nk)[ravel (nk.map (· + 1)) idx]?
      = some (values.getD (ravel nk (List.zipWith (fun x n => x % n) idx nk)) default) := by
  refine ⟨by rw [extendData, List.length_map, cIndices_length], ?_⟩
  rw [extendData, List.getElem?_map, (cIndices_ravel _ _ hin).1]
  rfl

/-- C69: inside the original mesh the data are unchanged; the last layer repeats the first. -/
theorem C69_interior_and_boundary {α : Type*} [Inhabited α] (values : List α) (nk idx : List ℕ)
    (hlen : values.length = nk.prod) (hin : Inside nk idx) :
    (extendData values nk)[ravel (nk.map (· + 1)) idx]? = values[ravel nk idx]? ∧
    ∀ idx' : List ℕ, List.Forall₂ (fun (i' : ℕ) (p : ℕ × ℕ) => i' = p.1 ∨ (i' = p.2 ∧ p.1 = 0)) idx' (idx.zip nk) →
      (extendData values nk)[ravel (nk.map (· + 1)) idx']? = values[ravel nk idx]? := by
  have key : ∀ idx' : List ℕ,
      List.Forall₂ (fun (i' : ℕ) (p : ℕ × ℕ) => i' = p.1 ∨ (i' = p.2 ∧ p.1 = 0)) idx' (idx.zip nk) →
      (extendData values nk)[ravel (nk.map (· + 1)) idx']? = values[ravel nk idx]? := by
    intro idx' h
    have hfold : Inside (nk.map (· + 1)) idx' ∧ List.zipWith (fun x n => x % n) idx' nk = idx := by
      clear hlen
      induction hin generalizing idx' with
      | nil => simp at h; subst h; exact ⟨List.Forall₂.nil, rfl⟩
      | @cons i n is ns hi _ ih =>
        rw [List.zip_cons_cons] at h
        cases h with
        | @cons i' _ is' _ h1 h2 =>
          obtain ⟨a1, a2⟩ := ih is' h2
          refine ⟨?_, ?_⟩
          · rw [List.map_cons]
            refine List.Forall₂.cons ?_ a1
            rcases h1 with h1 | h1
            · simp only at h1; omega
            · have := h1.1; simp only at this; omega
          · rw [List.zipWith_cons_cons, a2]
            congr 1
            rcases h1 with h1 | h1
            · simp only at h1; rw [h1, Nat.mod_eq_of_lt hi]
            · have e1 := h1.1; have e2 := h1.2; simp only at e1 e2; rw [e1, e2, Nat.mod_self]
    rw [(C69_periodic values nk idx' hfold.1).2, hfold.2]
    have hr := (cIndices_ravel nk idx hin).2
    rw [List.getD_eq_getElem?_getD, List.getElem?_eq_getElem (by omega)]
    rfl
  refine ⟨key idx ?_, key⟩
  clear key hlen
  induction hin with
  | nil => exact List.Forall₂.nil
  | cons hi _ ih => rw [List.zip_cons_cons]; exact List.Forall₂.cons (Or.inl rfl) ih

example : extendData [1, 2, 3, 4, 5, 6] [2, 3] = [1, 2, 3, 1, 4, 5, 6, 4, 1, 2, 3, 1] := by decide

/-! ## C70 -/

/-- C70: entries: row `a * B + b`, column `c * D + d`. -/
theorem C70_entry {α : Type*} (A B C D : ℕ) (flat : ℕ → α) (w a b c d : ℕ) :
    tensorToMatrix A B C D flat w (a * B + b) (c * D + d) = read5 B C D A flat w a b c d := by
  simp only [tensorToMatrix, read3, read5]
  congr 1
  ring

/-- C70: tensor to matrix and back. -/
theorem C70_tensor_roundtrip {α : Type*} (A B C D : ℕ) (t : ℕ → ℕ → ℕ → ℕ → ℕ → α) (w a b c d : ℕ)
    (ha : a < A) (hb : b < B) (hc : c < C) (hd : d < D) :
    matrixToTensor A B C D (flattenMat (A * B) (C * D) (tensorToMatrix A B C D (flattenTensor A B C D t))) w a b c d
      = t w a b c d := by
  have hAB : a * B + b < A * B := by
    calc a * B + b < a * B + B := by omega
      _ = (a + 1) * B := by ring
      _ ≤ A * B := Nat.mul_le_mul_right _ ha
  have hCD : c * D + d < C * D := by
    calc c * D + d < c * D + D := by omega
      _ = (c + 1) * D := by ring
      _ ≤ C * D := Nat.mul_le_mul_right _ hc
  have div1 : ∀ x y m : ℕ, y < m → (x * m + y) / m = x := by
    intro x y m hy
    rw [mul_comm, Nat.mul_add_div (by omega), Nat.div_eq_of_lt hy, add_zero]
  have mod1 : ∀ x y m : ℕ, y < m → (x * m + y) % m = y := by
    intro x y m hy
    rw [mul_comm, Nat.mul_add_mod, Nat.mod_eq_of_lt hy]
  have p : (((w * A + a) * B + b) * C + c) * D + d = (w * (A * B) + (a * B + b)) * (C * D) + (c * D + d) := by ring
  simp only [matrixToTensor, read5, flattenMat]
  rw [p, div1 _ _ _ hCD, mod1 _ _ _ hCD, div1 _ _ _ hAB, mod1 _ _ _ hAB, C70_entry]
  simp only [read5, flattenTensor]
  rw [div1 _ _ _ hd, mod1 _ _ _ hd, div1 _ _ _ hc, mod1 _ _ _ hc, div1 _ _ _ hb, mod1 _ _ _ hb,
    div1 _ _ _ ha, mod1 _ _ _ ha]

/-- C70: matrix to tensor and back. -/
theorem C70_matrix_roundtrip {α : Type*} (A B C D : ℕ) (m : ℕ → ℕ → ℕ → α) (w i j : ℕ) (hi : i < A * B)
    (hj : j < C * D) :
    tensorToMatrix A B C D (flattenTensor A B C D (matrixToTensor A B C D (flattenMat (A * B) (C * D) m))) w i j
      = m w i j := by
  have hB : 0 < B := Nat.pos_of_ne_zero (by rintro rfl; simp at hi)
  have hD : 0 < D := Nat.pos_of_ne_zero (by rintro rfl; simp at hj)
  have ha : i / B < A := by rw [Nat.div_lt_iff_lt_mul hB]; exact hi
  have hc : j / D < C := by rw [Nat.div_lt_iff_lt_mul hD]; exact hj
  have hb := Nat.mod_lt i hB
  have hd := Nat.mod_lt j hD
  have div1 : ∀ x y m : ℕ, y < m → (x * m + y) / m = x := by
    intro x y m hy
    rw [mul_comm, Nat.mul_add_div (by omega), Nat.div_eq_of_lt hy, add_zero]
  have mod1 : ∀ x y m : ℕ, y < m → (x * m + y) % m = y := by
    intro x y m hy
    rw [mul_comm, Nat.mul_add_mod, Nat.mod_eq_of_lt hy]
  have ei : i / B * B + i % B = i := Nat.div_add_mod' i B
  have ej : j / D * D + j % D = j := Nat.div_add_mod' j D
  have h := C70_entry A B C D (flattenTensor A B C D (matrixToTensor A B C D (flattenMat (A * B) (C * D) m)))
    w (i / B) (i % B) (j / D) (j % D)
  rw [ei, ej] at h
  rw [h]
  simp only [read5, flattenTensor]
  rw [div1 _ _ _ hd, mod1 _ _ _ hd, div1 _ _ _ hc, mod1 _ _ _ hc, div1 _ _ _ hb, mod1 _ _ _ hb,
    div1 _ _ _ ha, mod1 _ _ _ ha]
  simp only [matrixToTensor, read5, flattenMat]
  have p : (((w * A + i / B) * B + i % B) * C + j / D) * D + j % D
      = (w * (A * B) + i) * (C * D) + j := by
    calc _ = (w * (A * B) + (i / B * B + i % B)) * (C * D) + (j / D * D + j % D) := by ring
      _ = _ := by rw [ei, ej]
  rw [p, div1 _ _ _ hj, mod1 _ _ _ hj, div1 _ _ _ hi, mod1 _ _ _ hi]

/-- C70: the matrix product is the contraction of the pair. -/
theorem C70_product {F : Type*} [CommRing F] (A B C D E G : ℕ) (f g : ℕ → F) (w a b e h : ℕ) :
    (∑ i : Fin (C * D), tensorToMatrix A B C D f w (a * B + b) i * tensorToMatrix C D E G g w i (e * G + h))
      = ∑ c : Fin C, ∑ d : Fin D, read5 B C D A f w a b c d * read5 D E G C g w c d e h := by
  rw [← Equiv.sum_comp (finProdFinEquiv (m := C) (n := D)), Fintype.sum_prod_type]
  refine Finset.sum_congr rfl fun c _ => Finset.sum_congr rfl fun d _ => ?_
  have : ((finProdFinEquiv (c, d) : Fin (C * D)) : ℕ) = (c : ℕ) * D + d := by
    simp [finProdFinEquiv]; ring
  rw [this, C70_entry, C70_entry]

end Verif.Util
