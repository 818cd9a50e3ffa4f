import Verif.NumpyCompat.Props

/-!
# C135: versions written with decimal numerals

`C135_version_partial` speaks about the value that the model gives to a string of digits. Here the strings are the
decimal numerals of natural numbers, so the statement does not depend on how the digits are read.
-/

namespace Verif.NumpyCompat

theorem digitChar_value : ∀ d < 10, (Nat.digitChar d).toNat - 48 = d := by decide

theorem number_toDigits (n : ℕ) : number (Nat.toDigits 10 n) = n := by
  induction n using Nat.strong_induction_on with
  | _ n ih =>
    by_cases h : n < 10
    · rw [Nat.toDigits_of_lt_base h]
      change 10 * 0 + ((Nat.digitChar n).toNat - 48) = n
      rw [digitChar_value n h]
      omega
    · rw [Nat.toDigits_of_base_le (by omega) (by omega)]
      unfold number at ih ⊢
      rw [List.foldl_append, ih (n / 10) (by omega)]
      change 10 * (n / 10) + ((Nat.digitChar (n % 10)).toNat - 48) = n
      rw [digitChar_value _ (Nat.mod_lt _ (by omega))]
      omega

theorem digits_toDigits (n : ℕ) : Digits (Nat.toDigits 10 n) := by
  refine ⟨?_, fun c hc => Nat.isDigit_of_mem_toDigits (by omega) (by omega) hc⟩
  rw [Nat.toDigits_eq_if (by omega)]
  split <;> simp

/-- the string `A.B.C` -/
def release (A B C : ℕ) : List Char := Nat.toDigits 10 A ++ '.' :: (Nat.toDigits 10 B ++ '.' :: Nat.toDigits 10 C)

/-- C135: for all numbers, the version `A.B.C` is found newer than `X.Y.Z` exactly when `(A, B, C)` is lexicographically
larger. Missing: versions with a suffix (`C135_suffix_violated`). -/
theorem C135_numbers_partial (A B C X Y Z : ℕ) :
    isNumpyNewerThan (release A B C) (release X Y Z)
      = .ok (decide (X < A ∨ X = A ∧ (Y < B ∨ Y = B ∧ Z < C))) := by
  obtain ⟨r, h1, h2⟩ := C135_version_partial (digits_toDigits A) (digits_toDigits B) (digits_toDigits C)
    (digits_toDigits X) (digits_toDigits Y) (digits_toDigits Z)
  unfold release
  rw [h1]
  simp only [number_toDigits, Newer] at h2
  congr 1
  rw [Bool.eq_iff_iff, h2, decide_eq_true_iff]

/-- the strings are those that numpy reports -/
theorem release_examples : release 1 26 4 = "1.26.4".toList ∧ release 1 8 0 = "1.8.0".toList := by decide +kernel

example : isNumpyNewerThan "1.26.4".toList "1.8.0".toList = .ok true := by
  rw [← release_examples.1, ← release_examples.2, C135_numbers_partial]
  simp

end Verif.NumpyCompat
