import Verif.StreamModel
import Verif.ScanLemmas

/-!
# C81: numbers are appended to texts as their decimal digits
-/

namespace Frobby

/-- What is appended before it is reversed. -/
def lowDigits (n : ℕ) : Text := if n = 0 then ['0'] else (Nat.digits 10 n).map digitChar

theorem lowDigits_reverse (n : ℕ) : (lowDigits n).reverse = decimal n := by
  unfold lowDigits decimal
  split
  · rfl
  · rw [List.map_reverse]

theorem lowDigits_cons (n : ℕ) : lowDigits n = digitChar (n % 10) :: if n / 10 ≠ 0 then lowDigits (n / 10) else [] := by
  by_cases h0 : n = 0
  · subst h0; rfl
  · conv_lhs => rw [lowDigits, if_neg h0, Nat.digits_def' (by omega) (by omega), List.map_cons]
    by_cases h1 : n / 10 = 0
    · simp [h1]
    · rw [if_pos h1, lowDigits, if_neg h1]

theorem appendDigits_eq {w : ℕ} (hw : 8 ≤ w) (n : ℕ) (hn : n < 2 ^ w) (str : Text) : appendDigits w str n = str ++ lowDigits n := by
  induction n using Nat.strong_induction_on generalizing str with
  | _ n ih =>
    have hpow : 256 ≤ 2 ^ w := by
      calc 256 = 2 ^ 8 := rfl
        _ ≤ 2 ^ w := Nat.pow_le_pow_right (by omega) hw
    have hq : n / 10 * 10 % 2 ^ w = n / 10 * 10 := Nat.mod_eq_of_lt (by omega)
    have hr : (n + 2 ^ w - n / 10 * 10 % 2 ^ w) % 2 ^ w = n % 10 := by
      rw [hq, show n + 2 ^ w - n / 10 * 10 = n % 10 + 2 ^ w by omega, Nat.add_mod_right, Nat.mod_eq_of_lt (by omega)]
    have hd : Char.ofNat (((n % 10 + 48) % 2 ^ w) % 256) = digitChar (n % 10) := by
      rw [Nat.mod_eq_of_lt (show n % 10 + 48 < 2 ^ w by omega), Nat.mod_eq_of_lt (by omega), digitChar, Nat.add_comm]
    rw [appendDigits, lowDigits_cons]
    simp only [hr, hd]
    by_cases h : n / 10 = 0
    · simp [h]
    · rw [dif_pos h, if_pos h, ih (n / 10) (by omega) (by omega)]
      simp

/-- A number that fits is appended as its decimal digits, and the text before it stays as it is. -/
theorem C81_append {w : ℕ} (hw : 8 ≤ w) (str : Text) {n : ℕ} (hn : n < 2 ^ w) : appendInteger w str n = str ++ decimal n := by
  simp only [appendInteger, appendDigits_eq hw n hn]
  rw [List.take_left, List.drop_left, lowDigits_reverse]

/-- What is appended is read again as the same number by the scanner, when no digit follows. -/
theorem C81_read_back {w : ℕ} (hw : 8 ≤ w) {n : ℕ} (hn : n < 2 ^ w) {r : Text} (hr : nextIs isDigit r = false) :
    readInteger (appendInteger w [] n ++ r) = some ((n : ℤ), r) := by
  rw [C81_append hw [] hn]
  exact readInteger_decimal n hr

/-- Different numbers give different texts. -/
theorem C81_injective {w : ℕ} (hw : 8 ≤ w) {str : Text} {m n : ℕ} (hm : m < 2 ^ w) (hn : n < 2 ^ w) (h : appendInteger w str m = appendInteger w str n) :
    m = n := by
  rw [C81_append hw str hm, C81_append hw str hn, List.append_cancel_left_eq] at h
  have h1 := readInteger_decimal m (r := []) rfl
  have h2 := readInteger_decimal n (r := []) rfl
  rw [List.append_nil] at h1 h2
  rw [h, h2] at h1
  simp at h1
  exact h1.symm

/-- The names that are made for a number of variables: none is left out. -/
theorem C81_names {w : ℕ} (hw : 8 ≤ w) (n : ℕ) (hn : n < 2 ^ w) : streamNames w n = defaultNames n := by
  induction n with
  | zero => rfl
  | succ n ih =>
    have hap : appendInteger w ([] ++ ['x']) (n + 1) = 'x' :: decimal (n + 1) := by rw [C81_append hw _ hn]; rfl
    have hnot : 'x' :: decimal (n + 1) ∉ defaultNames n := by
      intro h
      simp only [defaultNames, List.mem_map, List.mem_range, List.cons.injEq, true_and] at h
      obtain ⟨i, hi, e⟩ := h
      have e' : appendInteger w [] (i + 1) = appendInteger w [] (n + 1) := by
        rw [C81_append hw [] (by omega), C81_append hw [] hn, e]
      have := C81_injective hw (by omega) hn e'
      omega
    rw [streamNames, ih (by omega)]
    simp only [hap, if_neg hnot]
    simp [defaultNames, List.range_succ]

example : appendInteger 64 t!"x" 18446744073709551615 = t!"x18446744073709551615" := by rw [C81_append (by decide) _ (by decide)]; decide +kernel

example : streamNames 64 11 = [t!"x1", t!"x2", t!"x3", t!"x4", t!"x5", t!"x6", t!"x7", t!"x8", t!"x9", t!"x10", t!"x11"] := by
  rw [C81_names (by decide) _ (by decide)]; decide +kernel

/-- A number of type `unsigned long long` is appended as its digits where `unsigned long` is as large. -/
theorem C81_long_long_partial (str : Text) {n : ℕ} (hn : n < 2 ^ 64) : appendLongLong 64 str n = str ++ decimal n := by
  rw [appendLongLong, Nat.mod_eq_of_lt hn]
  exact C81_append (by decide) str hn

/-- Where `unsigned long` has 32 bits, such a number can be appended as another number. -/
theorem C81_long_long_witness : ∃ n < 2 ^ 64, appendLongLong 32 [] n = t!"0" ∧ decimal n = t!"4294967296" := by
  refine ⟨4294967296, by decide, ?_, by decide +kernel⟩
  rw [appendLongLong, C81_append (by decide) _ (by decide)]
  decide +kernel

end Frobby
