import Mathlib.Data.Nat.Digits.Defs
import Mathlib.Data.List.Basic
import Mathlib.Tactic.IntervalCases

/-!
# Text

Texts are lists of characters. What `operator<<` of the C++ library and of GMP print for a number is `decimal`.
-/

namespace Frobby

abbrev Text := List Char

/-- The character of a digit. -/
def digitChar (d : ℕ) : Char := Char.ofNat (48 + d)

/-- The decimal representation of a natural number, without leading zeros. -/
def decimal (x : ℕ) : Text := if x = 0 then ['0'] else ((Nat.digits 10 x).reverse.map digitChar)

/-- The decimal representation of an integer. -/
def decimalInt (x : ℤ) : Text := if x < 0 then '-' :: decimal x.natAbs else decimal x.natAbs

/-- `isdigit` in the C locale. -/
def isDigit (c : Char) : Bool := decide (48 ≤ c.toNat ∧ c.toNat ≤ 57)

/-- The value of a sequence of digits, as read by `mpz_set_str` in base 10. -/
def digitsValue (t : Text) : ℕ := t.foldl (fun acc c => 10 * acc + (c.toNat - 48)) 0

theorem digitChar_toNat {d : ℕ} (h : d < 10) : (digitChar d).toNat = 48 + d := by
  interval_cases d <;> rfl

theorem isDigit_digitChar {d : ℕ} (h : d < 10) : isDigit (digitChar d) = true := by
  interval_cases d <;> rfl

theorem decimal_ne_nil (x : ℕ) : decimal x ≠ [] := by
  unfold decimal
  split
  · simp
  · rename_i h
    simpa using Nat.digits_ne_nil_iff_ne_zero.2 h

theorem isDigit_of_mem_decimal {x : ℕ} {c : Char} (h : c ∈ decimal x) : isDigit c = true := by
  unfold decimal at h
  split at h
  · simp only [List.mem_singleton] at h; subst h; rfl
  · simp only [List.mem_map, List.mem_reverse] at h
    obtain ⟨d, hd, rfl⟩ := h
    exact isDigit_digitChar (Nat.digits_lt_base (by norm_num) hd)

theorem digitsValue_reverse (l : List ℕ) (h : ∀ d ∈ l, d < 10) :
    digitsValue (l.reverse.map digitChar) = Nat.ofDigits 10 l := by
  induction l with
  | nil => rfl
  | cons d l ih =>
    have ih := ih fun x hx => h x (by simp [hx])
    unfold digitsValue at ih ⊢
    rw [List.reverse_cons, List.map_append, List.foldl_append, ih, Nat.ofDigits_cons]
    simp only [List.map_cons, List.map_nil, List.foldl_cons, List.foldl_nil]
    rw [digitChar_toNat (h d (by simp))]
    have h1 : ((d : ℕ) : ℕ) = d := rfl
    omega

theorem digitsValue_decimal (x : ℕ) : digitsValue (decimal x) = x := by
  unfold decimal
  split
  · rename_i h; subst h; rfl
  · rw [digitsValue_reverse _ fun d hd => Nat.digits_lt_base (by norm_num) hd, Nat.ofDigits_digits]

theorem decimal_injective : Function.Injective decimal := fun a b h => by
  rw [← digitsValue_decimal a, h, digitsValue_decimal]

end Frobby
