import Verif.TextModel
import Mathlib.Data.Nat.Notation

/-!
# Model of `Scanner` (src/Scanner.cpp, src/Scanner.h)

The state of a scanner is the rest of the input. The buffer (`readBuffer`), the line number and the texts of error messages
are not modelled. A syntax error is `none`.
-/

namespace Frobby

open Lean in
/-- A text given by a string. -/
macro:max "t!" s:str : term => do
  let cs : Array (TSyntax `term) := (s.getString.toList.map fun c => (⟨Syntax.mkCharLit c⟩ : TSyntax `term)).toArray
  `(([$cs,*] : Text))

/-- `isspace` in the C locale. -/
def isSpace (c : Char) : Bool := decide (c.toNat = 32 ∨ 9 ≤ c.toNat ∧ c.toNat ≤ 13)

/-- `isalpha` in the C locale. -/
def isAlpha (c : Char) : Bool := decide (65 ≤ c.toNat ∧ c.toNat ≤ 90 ∨ 97 ≤ c.toNat ∧ c.toNat ≤ 122)

/-- The characters that can occur in an identifier after the first one (Scanner.cpp:263, Scanner.h:198). -/
def isIdChar (c : Char) : Bool := isAlpha c || isDigit c || c = '_'

/-- `Scanner::eatWhite` (Scanner.h:267-270). -/
def eatWhite (t : Text) : Text := t.dropWhile isSpace

/-- A condition on `Scanner::peek()` (Scanner.h:148) that is false at the end of the input. -/
def nextIs (p : Char → Bool) : Text → Bool
  | [] => false
  | c :: _ => p c

/-- `Scanner::match` (Scanner.h:215-222). -/
def matchChar (c : Char) (t : Text) : Bool × Text :=
  match eatWhite t with
  | [] => (false, [])
  | d :: r => if d = c then (true, r) else (false, d :: r)

/-- `Scanner::expect(char)` (Scanner.h:231-236). -/
def expectChar (c : Char) (t : Text) : Option Text :=
  match eatWhite t with
  | [] => none
  | d :: r => if d = c then some r else none

/-- The loop of `Scanner::expect(const char*)`. -/
def stripText : Text → Text → Option Text
  | [], t => some t
  | c :: s, d :: t => if c = d then stripText s t else none
  | _ :: _, [] => none

/-- `Scanner::expect(const char*)` (Scanner.cpp:46-75). -/
def expectText (s t : Text) : Option Text := stripText s (eatWhite t)

/-- `Scanner::readIdentifier` (Scanner.cpp:255-272, Scanner.h:191-199). -/
def readIdentifier (t : Text) : Option (Text × Text) :=
  if nextIs isAlpha (eatWhite t) then some ((eatWhite t).takeWhile isIdChar, (eatWhite t).dropWhile isIdChar) else none

/-- `Scanner::peekIdentifier` (Scanner.h:257-260). That white space is skipped makes no difference to what is called
afterwards. -/
def peekIdentifier (t : Text) : Bool := nextIs isAlpha (eatWhite t)

/-- `Scanner::peek(char)` (Scanner.h:262-265), as for `peekIdentifier`. -/
def peekChar (c : Char) (t : Text) : Bool := nextIs (fun d => d = c) (eatWhite t)

/-- `Scanner::peekWhite` (Scanner.h:137). -/
def peekWhite (t : Text) : Bool := nextIs isSpace t

/-- `Scanner::matchEOF` (Scanner.h:210-213). -/
def matchEOF (t : Text) : Bool := (eatWhite t).isEmpty

/-- The loop that reads digits (Scanner.cpp:111-122, 135-145). -/
def readDigits (t : Text) : Option (Text × Text) :=
  if t.takeWhile isDigit = [] then none else some (t.takeWhile isDigit, t.dropWhile isDigit)

/-- `Scanner::readIntegerStringNoSign` (Scanner.cpp:127-148). -/
def readIntegerStringNoSign (t : Text) : Option (Text × Text) :=
  if nextIs (fun c => c = '-' || c = '+') (eatWhite t) then none else readDigits (eatWhite t)

/-- `Scanner::readInteger` (Scanner.h:238-241) with `readIntegerString` (Scanner.cpp:101-125) and `parseInteger` (150-169),
which gives the value in base 10 for both lengths. -/
def readInteger (t : Text) : Option (ℤ × Text) :=
  match eatWhite t with
  | [] => none
  | c :: r =>
    if c = '-' then (readDigits r).map fun p => (-(digitsValue p.1 : ℤ), p.2)
    else if c = '+' then (readDigits r).map fun p => ((digitsValue p.1 : ℤ), p.2)
    else (readDigits (c :: r)).map fun p => ((digitsValue p.1 : ℤ), p.2)

/-- `Scanner::readSizeT` (Scanner.cpp:205-241) for a `size_t` of 64 bits. -/
def readSizeT (t : Text) : Option (ℕ × Text) :=
  match readInteger t with
  | none => none
  | some (x, r) => if 0 ≤ x ∧ x < 2 ^ 64 then some (x.toNat, r) else none

/-- `Scanner::readIntegerAndNegativeAsZero(mpz_class&)` (Scanner.cpp:171-186). The first test does not skip white space. -/
def readNonNegative (t : Text) : Option (ℕ × Text) :=
  match t with
  | '0' :: r =>
    if nextIs isDigit r then (readInteger r).map fun p => (p.1.toNat, p.2) else some (0, r)
  | _ => (readInteger t).map fun p => (p.1.toNat, p.2)

/-- The value `mpz_class::operator=(const char*)` gives to a text of digits. This is `mpz_set_str` with base 0: a leading
zero indicates base 8. A digit that is not possible in base 8 is an error. -/
def digitsValue0 (t : Text) : Option ℕ :=
  match t with
  | [] => none
  | '0' :: r => if r.all (fun c => decide (c.toNat ≤ 55)) then some (r.foldl (fun acc c => 8 * acc + (c.toNat - 48)) 0) else none
  | _ => some (digitsValue t)

/-- `do { item } while (in.match(sep))`. The first argument bounds the number of items. The length of the input is enough,
since every item takes at least one character. -/
def readSep {σ : Type} (item : σ → Text → Option (σ × Text)) (sep : Char) : ℕ → σ → Text → Option (σ × Text)
  | 0, _, _ => none
  | fuel + 1, s, t =>
    match item s t with
    | none => none
    | some (s', r) =>
      match matchChar sep r with
      | (true, r') => readSep item sep fuel s' r'
      | (false, r') => some (s', r')

/-- `while (!in.match(stop)) { item }`. -/
def readUntil {σ : Type} (item : σ → Text → Option (σ × Text)) (stop : Char) : ℕ → σ → Text → Option (σ × Text)
  | 0, _, _ => none
  | fuel + 1, s, t =>
    match matchChar stop t with
    | (true, r) => some (s, r)
    | (false, r) =>
      match item s r with
      | none => none
      | some (s', r') => readUntil item stop fuel s' r'

/-- `for (i = 0; i < count; ++i) { item }`. -/
def readTimes {σ : Type} (item : σ → Text → Option (σ × Text)) : ℕ → σ → Text → Option (σ × Text)
  | 0, s, t => some (s, t)
  | count + 1, s, t =>
    match item s t with
    | none => none
    | some (s', r) => readTimes item count s' r

end Frobby
