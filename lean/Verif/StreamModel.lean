import Verif.IOModel

/-!
# Model of the numbers in `FrobbyStringStream` (src/FrobbyStringStream.cpp)

Numbers of type `unsigned long` have `w` bits and are taken modulo `2 ^ w` after each operation; `char` has 8 bits.
-/

namespace Frobby

/-- The loop of `appendIntegerToString` (FrobbyStringStream.cpp:92-102). -/
def appendDigits (w : ℕ) (str : Text) (integer : ℕ) : Text :=
  let quotient := integer / 10
  let remainder := (integer + 2 ^ w - quotient * 10 % 2 ^ w) % 2 ^ w
  let digit := Char.ofNat (((remainder + 48) % 2 ^ w) % 256)
  if h : quotient ≠ 0 then appendDigits w (str ++ [digit]) quotient else str ++ [digit]
termination_by integer
decreasing_by
  have : integer / 10 ≠ 0 := h
  exact Nat.div_lt_self (by omega) (by omega)

/-- `appendIntegerToString` (FrobbyStringStream.cpp:86-107): only what is new is reversed. -/
def appendInteger (w : ℕ) (str : Text) (integer : ℕ) : Text :=
  let s := appendDigits w str integer
  s.take str.length ++ (s.drop str.length).reverse

/-- `operator<<(unsigned long long)` (FrobbyStringStream.cpp:44-47): the number is converted to `unsigned long`. -/
def appendLongLong (w : ℕ) (str : Text) (integer : ℕ) : Text := appendInteger w str (integer % 2 ^ w)

/-- The names of `VarNames(varCount)` (VarNames.cpp:28-34), where `VarNames::addVar` leaves out a name that is there already (VarNames.cpp:44-52). The
numbers of type `size_t` have at most `w` bits. -/
def streamNames (w : ℕ) : ℕ → List Text
  | 0 => []
  | n + 1 =>
    let names := streamNames w n
    let name := appendInteger w ([] ++ ['x']) (n + 1)
    if name ∈ names then names else names ++ [name]

end Frobby
