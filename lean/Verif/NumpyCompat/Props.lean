import Verif.NumpyCompat.Model
import Mathlib.Data.List.Forall2
import Mathlib.Tactic.Ring
import Mathlib.Tactic.Linarith

/-!
# C135: the array helpers with every version of numpy
-/

namespace Verif.NumpyCompat

/-- a nonempty string of digits -/
def Digits (ds : List Char) : Prop := ds ≠ [] ∧ ∀ c ∈ ds, c.isDigit = true

/-- no digit at the beginning -/
def Stops (r : List Char) : Prop := ∀ c r', r = c :: r' → c.isDigit = false

theorem takeWhile_stop {a r : List Char} (ha : ∀ c ∈ a, c.isDigit = true) (hr : Stops r) : (a ++ r).takeWhile Char.isDigit = a := by
  rw [List.takeWhile_append_of_pos ha]
  cases r with
  | nil => simp
  | cons c r' => rw [List.takeWhile_cons_of_neg (by rw [hr c r' rfl]; simp), List.append_nil]

theorem dropWhile_stop {a r : List Char} (ha : ∀ c ∈ a, c.isDigit = true) (hr : Stops r) : (a ++ r).dropWhile Char.isDigit = r := by
  rw [List.dropWhile_append_of_pos ha]
  cases r with
  | nil => simp
  | cons c r' => rw [List.dropWhile_cons_of_neg (by rw [hr c r' rfl]; simp)]

theorem stops_dot (r : List Char) : Stops ('.' :: r) := by
  intro c r' h
  rw [List.cons.injEq] at h
  rw [← h.1]
  decide

theorem parse_three {a b c t : List Char} (ha : Digits a) (hb : Digits b) (hc : Digits c) (ht : Stops t) :
    parse (a ++ '.' :: (b ++ '.' :: (c ++ t))) = (parseEnd t).map fun p => ⟨(number a, number b, number c), p⟩ := by
  unfold parse
  rw [takeWhile_stop ha.2 (stops_dot _), dropWhile_stop ha.2 (stops_dot _)]
  split
  · next r h =>
    rw [List.cons.injEq] at h
    obtain rfl := h.2
    rw [takeWhile_stop hb.2 (stops_dot _), dropWhile_stop hb.2 (stops_dot _), if_neg (not_or.2 ⟨ha.1, hb.1⟩)]
    split
    · next r' h' =>
      rw [List.cons.injEq] at h'
      obtain rfl := h'.2
      rw [takeWhile_stop hc.2 ht, dropWhile_stop hc.2 ht, if_neg hc.1]
    · next h' => exact absurd rfl (h' _)
  · next h => exact absurd rfl (h _)

theorem stops_nil : Stops [] := fun _ _ h => by cases h

/-- release `A.B.C` is newer than release `X.Y.Z` -/
def Newer (A B C X Y Z : ℕ) : Prop := X < A ∨ X = A ∧ (Y < B ∨ Y = B ∧ Z < C)

/-- C135: releases are compared by their numbers, not as strings. Missing: versions with a suffix (`C135_suffix_violated`). -/
theorem C135_version_partial {a b c x y z : List Char} (ha : Digits a) (hb : Digits b) (hc : Digits c) (hx : Digits x) (hy : Digits y)
    (hz : Digits z) :
    ∃ r, isNumpyNewerThan (a ++ '.' :: (b ++ '.' :: c)) (x ++ '.' :: (y ++ '.' :: z)) = .ok r ∧
      (r = true ↔ Newer (number a) (number b) (number c) (number x) (number y) (number z)) := by
  have h1 := parse_three ha hb hc stops_nil
  have h2 := parse_three hx hy hz stops_nil
  rw [List.append_nil] at h1 h2
  unfold isNumpyNewerThan
  rw [h1, h2]
  refine ⟨_, rfl, ?_⟩
  unfold Version.gt Newer
  dsimp only
  by_cases h : (number a, number b, number c) = (number x, number y, number z)
  · rw [if_neg (not_not.2 h)]
    rw [Prod.mk.injEq, Prod.mk.injEq] at h
    simp only [Bool.false_eq_true, false_iff]
    omega
  · rw [if_pos h, decide_eq_true_eq, Prod.Lex.toLex_lt_toLex]
    dsimp only
    rw [Prod.Lex.toLex_lt_toLex]

/-- C135: every version of numpy with another suffix than `aN` or `bN`, as the release candidates `2.0.0rc1` and the development versions
`1.26.0.dev0+123`, is refused with an exception. -/
theorem C135_suffix_violated {a b c r v : List Char} {s : Char} (ha : Digits a) (hb : Digits b) (hc : Digits c)
    (hs : s.isDigit = false) (hA : s ≠ 'a') (hB : s ≠ 'b') :
    isNumpyNewerThan (a ++ '.' :: (b ++ '.' :: (c ++ s :: r))) v = .error "ValueError: invalid version number" := by
  have ht : Stops (s :: r) := by
    intro c' r' h
    rw [List.cons.injEq] at h
    rw [← h.1]
    exact hs
  have h1 := parse_three ha hb hc ht
  have h2 : parseEnd (s :: r) = none := by
    unfold parseEnd
    dsimp only
    rw [if_neg]
    rintro ⟨h | h, -⟩
    · exact hA h
    · exact hB h
  rw [h2] at h1
  unfold isNumpyNewerThan
  rw [h1]
  rfl

/-- C135: an alpha or beta version `A.B.CaN` of numpy counts as newer than a release with smaller numbers only, so it is older than the
release of the same number. -/
theorem C135_prerelease {a b c x y z m : List Char} {s : Char} (ha : Digits a) (hb : Digits b) (hc : Digits c) (hx : Digits x)
    (hy : Digits y) (hz : Digits z) (hm : Digits m) (hs : s = 'a' ∨ s = 'b') :
    ∃ r, isNumpyNewerThan (a ++ '.' :: (b ++ '.' :: (c ++ s :: m))) (x ++ '.' :: (y ++ '.' :: z)) = .ok r ∧
      (r = true ↔ Newer (number a) (number b) (number c) (number x) (number y) (number z)) := by
  have ht : Stops (s :: m) := by
    intro c' r' h
    rw [List.cons.injEq] at h
    rw [← h.1]
    rcases hs with h | h <;> rw [h] <;> decide
  have h1 := parse_three ha hb hc ht
  have h2 := parse_three hx hy hz stops_nil
  have h3 : parseEnd (s :: m) = some (some (s, number m)) := by
    unfold parseEnd
    dsimp only
    rw [if_pos ⟨hs, hm.1, List.all_eq_true.2 hm.2⟩]
  rw [List.append_nil] at h2
  rw [h3] at h1
  unfold isNumpyNewerThan
  rw [h1, h2]
  refine ⟨_, rfl, ?_⟩
  unfold Version.gt Newer
  dsimp only
  by_cases h : (number a, number b, number c) = (number x, number y, number z)
  · rw [if_neg (not_not.2 h)]
    rw [Prod.mk.injEq, Prod.mk.injEq] at h
    simp only [Bool.false_eq_true, false_iff]
    omega
  · rw [if_pos h, decide_eq_true_eq, Prod.Lex.toLex_lt_toLex]
    dsimp only
    rw [Prod.Lex.toLex_lt_toLex]

/-- C135: every release is newer than the alpha and beta versions of the same number. -/
theorem C135_release {a b c m : List Char} {s : Char} (ha : Digits a) (hb : Digits b) (hc : Digits c) (hm : Digits m)
    (hs : s = 'a' ∨ s = 'b') :
    isNumpyNewerThan (a ++ '.' :: (b ++ '.' :: c)) (a ++ '.' :: (b ++ '.' :: (c ++ s :: m))) = .ok true := by
  have ht : Stops (s :: m) := by
    intro c' r' h
    rw [List.cons.injEq] at h
    rw [← h.1]
    rcases hs with h | h <;> rw [h] <;> decide
  have h1 := parse_three ha hb hc ht
  have h2 := parse_three ha hb hc stops_nil
  have h3 : parseEnd (s :: m) = some (some (s, number m)) := by
    unfold parseEnd
    dsimp only
    rw [if_pos ⟨hs, hm.1, List.all_eq_true.2 hm.2⟩]
  rw [List.append_nil] at h2
  rw [h3] at h1
  unfold isNumpyNewerThan
  rw [h1, h2]
  unfold Version.gt
  simp [parseEnd]

/-! ## Loops -/

/-- an index that fits the shape -/
def Fits (shape idx : List ℕ) : Prop := List.Forall₂ (· < ·) idx shape

theorem mem_product {shape idx : List ℕ} : idx ∈ product shape ↔ Fits shape idx := by
  induction shape generalizing idx with
  | nil =>
    unfold product Fits
    rw [List.mem_singleton, List.forall₂_nil_right_iff]
  | cons n ns ih =>
    unfold product Fits
    rw [List.mem_flatMap, List.forall₂_cons_right_iff]
    constructor
    · rintro ⟨i, hi, h⟩
      rw [List.mem_map] at h
      obtain ⟨t, ht, rfl⟩ := h
      exact ⟨i, t, List.mem_range.1 hi, ih.1 ht, rfl⟩
    · rintro ⟨i, t, hi, ht, rfl⟩
      exact ⟨i, List.mem_range.2 hi, List.mem_map.2 ⟨t, ih.2 ht, rfl⟩⟩

theorem fillLoop_apply {A B : Type} (func : A → B) (arr : List ℕ → A) (out : List ℕ → B) (idxs : List (List ℕ)) (idx : List ℕ) :
    fillLoop func arr out idxs idx = if idx ∈ idxs then func (arr idx) else out idx := by
  induction idxs generalizing out with
  | nil => simp [fillLoop]
  | cons i is ih =>
    have e : fillLoop func arr out (i :: is) = fillLoop func arr (Function.update out i (func (arr i))) is := rfl
    rw [e, ih]
    by_cases h : idx ∈ is
    · rw [if_pos h, if_pos (List.mem_cons_of_mem _ h)]
    · rw [if_neg h]
      by_cases h' : idx = i
      · rw [h', Function.update_self, if_pos List.mem_cons_self]
      · rw [Function.update_of_ne h', if_neg]
        rw [List.mem_cons, not_or]
        exact ⟨h', h⟩

/-- C135: with every version of numpy that is not refused, `np_inv` (and every other function of matrices) acts on each matrix of an
array of any shape by itself. -/
theorem C135_linalg {A : Type} (npVersion : List Char) (func : A → A) (empty : List ℕ → A) (shape : List ℕ) (arr : List ℕ → A)
    (version : List Char) (out : List ℕ → A) (h : npLinalgFunc npVersion func empty shape arr version = .ok out) (idx : List ℕ)
    (hi : Fits shape idx) : out idx = func (arr idx) := by
  unfold npLinalgFunc at h
  split at h
  · cases h
  · cases h
    rfl
  · cases h
    rw [fillLoop_apply, if_pos (mem_product.2 hi)]

/-- C135: `np_eigh` acts on each matrix by itself. -/
theorem C135_eigh {A B : Type} (npVersion : List Char) (eigh : A → B) (empty : List ℕ → B) (N : ℕ) (arr : List ℕ → A) (out : List ℕ → B)
    (h : npEigh npVersion eigh empty N arr = .ok out) (i : ℕ) (hi : i < N) : out [i] = eigh (arr [i]) := by
  unfold npEigh at h
  split at h
  · cases h
  · cases h
    rfl
  · cases h
    rw [fillLoop_apply, if_pos (List.mem_map.2 ⟨i, List.mem_range.2 hi, rfl⟩)]

theorem eigvalsh_loop {E : Type} (N M : ℕ) (v : ℕ → ℕ → E) (empty : List ℕ → E) (K : ℕ) (hK : K ≤ N) :
    ∃ out : Arr E, (List.range K).foldlM (fun out i => assignRow out i M (v i)) (⟨[N, M], empty⟩ : Arr E) = .ok out ∧
      out.shape = [N, M] ∧ ∀ i j, i < K → out.val [i, j] = v i j := by
  induction K with
  | zero => exact ⟨_, rfl, rfl, fun i j hi => absurd hi (Nat.not_lt_zero i)⟩
  | succ K ih =>
    obtain ⟨out, h1, h2, h3⟩ := ih (by omega)
    rw [List.range_succ, List.foldlM_append, h1]
    obtain ⟨shape, val⟩ := out
    dsimp only at h2 h3
    subst h2
    refine ⟨⟨[N, M], fun idx => match idx with
      | [i', j] => if i' = K then v K j else val idx
      | _ => val idx⟩, ?_, rfl, ?_⟩
    · have e : assignRow (⟨[N, M], val⟩ : Arr E) K M (v K) = .ok ⟨[N, M], fun idx => match idx with
          | [i', j] => if i' = K then v K j else val idx
          | _ => val idx⟩ := by
        unfold assignRow
        dsimp only
        rw [if_neg (by omega), if_pos rfl]
        rfl
      have e2 : ∀ o : Arr E, (do let init ← (Except.ok o : Except String (Arr E)); [K].foldlM (fun out i => assignRow out i M (v i)) init) =
          assignRow o K M (v K) := by
        intro o
        change [K].foldlM (fun out i => assignRow out i M (v i)) o = _
        rw [List.foldlM_cons]
        cases assignRow o K M (v K) <;> rfl
      rw [e2, e]
    · intro i j hi
      dsimp only
      by_cases h : i = K
      · rw [if_pos h, h]
      · rw [if_neg h]
        exact h3 i j (by omega)

/-- C135: `np_eigvalsh` returns the eigenvalues of each matrix in a row. Missing: one matrix or matrices of one element with an old
version of numpy (`C135_eigvalsh_violated`). -/
theorem C135_eigvalsh_partial {A E : Type} (npVersion : List Char) (eigvalsh : A → ℕ → E) (empty : List ℕ → E) (N M : ℕ) (arr : ℕ → A)
    (hv : ∃ r, isNumpyNewerThan npVersion "1.8.0".toList = .ok r ∧ (r = true ∨ N ≠ 1 ∧ M ≠ 1)) :
    ∃ out : Arr E, npEigvalsh npVersion eigvalsh empty N M arr = .ok out ∧ out.shape = [N, M] ∧
      ∀ i j, i < N → out.val [i, j] = eigvalsh (arr i) j := by
  obtain ⟨r, hr, h⟩ := hv
  unfold npEigvalsh
  rw [hr]
  cases r with
  | true => exact ⟨_, rfl, rfl, fun i j _ => rfl⟩
  | false =>
    obtain ⟨h1, h2⟩ := h.resolve_left (by simp)
    have e : squeeze [N, M] = [N, M] := by
      unfold squeeze
      rw [List.filter_cons_of_pos (by simpa using h1), List.filter_cons_of_pos (by simpa using h2), List.filter_nil]
    dsimp only
    rw [e]
    exact eigvalsh_loop N M (fun i => eigvalsh (arr i)) empty N le_rfl

/-- C135: with numpy 1.8.0 and older `np_eigvalsh` fails for one matrix, and for one orbital the axis of the eigenvalues is missing. -/
theorem C135_eigvalsh_violated {A E : Type} (npVersion : List Char) (eigvalsh : A → ℕ → E) (empty : List ℕ → E) (arr : ℕ → A)
    (hv : isNumpyNewerThan npVersion "1.8.0".toList = .ok false) :
    (∀ M, ∃ e, npEigvalsh npVersion eigvalsh empty 1 M arr = .error e) ∧
    ∀ N, 1 < N → ∀ out, npEigvalsh npVersion eigvalsh empty N 1 arr = .ok out → out.shape ≠ [N, 1] := by
  constructor
  · intro M
    unfold npEigvalsh
    rw [hv]
    dsimp only
    rw [List.range_one, List.foldlM_cons]
    by_cases h : M = 1
    · subst h
      exact ⟨_, rfl⟩
    · have e : squeeze [1, M] = [M] := by
        unfold squeeze
        rw [List.filter_cons_of_neg (by simp), List.filter_cons_of_pos (by simpa using h), List.filter_nil]
      rw [e]
      unfold assignRow
      dsimp only
      by_cases h0 : M ≤ 0
      · rw [if_pos h0]
        exact ⟨_, rfl⟩
      · rw [if_neg h0, if_neg h]
        exact ⟨_, rfl⟩
  · intro N hN out h
    unfold npEigvalsh at h
    rw [hv] at h
    dsimp only at h
    have e : squeeze [N, 1] = [N] := by
      unfold squeeze
      rw [List.filter_cons_of_pos (by simp; omega), List.filter_cons_of_neg (by simp), List.filter_nil]
    rw [e] at h
    have key : ∀ (l : List ℕ) (o o' : Arr E), o.shape = [N] →
        l.foldlM (fun out i => assignRow out i 1 (eigvalsh (arr i))) o = .ok o' → o'.shape = [N] := by
      intro l
      induction l with
      | nil =>
        intro o o' h1 h2
        cases h2
        exact h1
      | cons i is ih =>
        intro o o' h1 h2
        rw [List.foldlM_cons] at h2
        cases ha : assignRow o i 1 (eigvalsh (arr i)) with
        | error e => rw [ha] at h2; cases h2
        | ok o1 =>
          rw [ha] at h2
          refine ih o1 o' ?_ h2
          unfold assignRow at ha
          rw [h1] at ha
          dsimp only at ha
          split_ifs at ha
          cases ha
          rfl
    rw [key _ _ _ rfl h]
    simp

/-! ## Cases that meet the hypotheses -/

/-- `C135_version_partial`: 1.26.4 is newer than 1.8.0 although the string is smaller; 1.8.0 itself is not newer -/
example : isNumpyNewerThan "1.26.4".toList "1.8.0".toList = .ok true ∧ isNumpyNewerThan "1.8.0".toList "1.8.0".toList = .ok false ∧
    "1.26.4" < "1.8.0" := by
  refine ⟨?_, ?_, ?_⟩ <;> decide +kernel

example : Digits "26".toList ∧ number "26".toList = 26 := by
  refine ⟨⟨by decide, by decide⟩, by decide⟩

/-- `C135_suffix_violated`: `2.0.0rc1` -/
example : isNumpyNewerThan "2.0.0rc1".toList "1.8.0".toList = .error "ValueError: invalid version number" :=
  C135_suffix_violated (a := ['2']) (b := ['0']) (c := ['0']) (s := 'r') (r := ['c', '1']) ⟨by decide, by decide⟩ ⟨by decide, by decide⟩
    ⟨by decide, by decide⟩ (by decide) (by decide) (by decide)

/-- `C135_prerelease`, `C135_release` -/
example : isNumpyNewerThan "1.8.0b2".toList "1.8.0".toList = .ok false ∧ isNumpyNewerThan "1.10.0b2".toList "1.8.0".toList = .ok true ∧
    isNumpyNewerThan "1.8.0".toList "1.8.0b2".toList = .ok true := by
  refine ⟨?_, ?_, ?_⟩ <;> decide +kernel

/-- `C135_linalg`, `C135_eigh`, `C135_eigvalsh_partial`: both branches are reached -/
example : Fits [2, 3] [1, 2] ∧
    (npLinalgFunc "1.7.0".toList (fun x : ℕ => x + 1) (fun _ => 0) [2, 3] (fun i => i.sum) "1.8.0".toList).toOption.map (· [1, 2]) = some 4 ∧
    (npLinalgFunc "1.9.0".toList (fun x : ℕ => x + 1) (fun _ => 0) [2, 3] (fun i => i.sum) "1.8.0".toList).toOption.map (· [1, 2]) = some 4 := by
  refine ⟨?_, ?_, ?_⟩
  · unfold Fits
    simp
  · decide +kernel
  · decide +kernel

end Verif.NumpyCompat
