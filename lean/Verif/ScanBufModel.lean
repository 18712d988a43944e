import Verif.ScanModel

/-!
# Model of `Scanner` on the bytes of a file (src/Scanner.cpp, src/Scanner.h)

`ScanModel` has the scanner on the rest of a text. In the code there is a file, a buffer that is filled from it, the next character as an
`int` in which the end of the input is -1, and an array that becomes larger when a number or an identifier does not fit. Here all that is
modelled, with the line number.
-/

namespace Frobby

/-- A byte of a file. -/
abbrev FileByte := Fin 256

/-- The value of a byte that is read as a `char` and made an `int`. `char` is signed. -/
def signedChar (b : FileByte) : ℤ := if b.val < 128 then b.val else (b.val : ℤ) - 256

/-- A file that is read: the bytes that are still to come, whether reading fails after them in place of coming to the end, and what
`feof` and `ferror` say. -/
structure InFile where
  rest : List FileByte
  fails : Bool
  eof : Bool
  err : Bool

/-- `fread` of `n` bytes. Less than `n` bytes are got only at the end or when reading fails. -/
def InFile.read (f : InFile) (n : ℕ) : List FileByte × InFile :=
  if f.rest.length < n then (f.rest, ⟨[], f.fails, f.eof || !f.fails, f.err || f.fails⟩)
  else (f.rest.take n, ⟨f.rest.drop n, f.fails, f.eof, f.err⟩)

/-- `Scanner` (Scanner.h:172-185). `tmp` is the array at `_tmpString`, where `none` is a `char` that has not been written, `capacity` is
`_buffer.capacity()`. -/
structure BufScanner where
  file : InFile
  line : ℕ
  char : ℤ
  tmp : List (Option ℤ)
  buffer : List FileByte
  capacity : ℕ
  pos : ℕ

/-- How reading stops: a syntax error is reported with a line number, or something happens that must not (an access outside of an array,
the use of a `char` that was not written, a text that is no number, an endless loop). -/
inductive ScanStop
  | syntaxError (line : ℕ)
  | undefined
deriving DecidableEq

/-- `isspace` in the C locale. -/
def spaceInt (c : ℤ) : Bool := decide (c = 32 ∨ 9 ≤ c ∧ c ≤ 13)

/-- `isdigit`. -/
def digitInt (c : ℤ) : Bool := decide (48 ≤ c ∧ c ≤ 57)

/-- `isalpha` in the C locale. -/
def alphaInt (c : ℤ) : Bool := decide (65 ≤ c ∧ c ≤ 90 ∨ 97 ≤ c ∧ c ≤ 122)

/-- `isalnum` in the C locale. -/
def alnumInt (c : ℤ) : Bool := alphaInt c || digitInt c

/-- The condition of the loops that read identifiers (Scanner.cpp:263, Scanner.h:198). -/
def idInt (c : ℤ) : Bool := alnumInt c || decide (c = 95)

/-- The character for an `int`. -/
def charOfInt (c : ℤ) : Char := Char.ofNat (c % 256).toNat

/-- The `int` for a character. -/
def intOfChar (c : Char) : ℤ := c.toNat

/-- The text before the first character that is taken for the end. -/
def textOfInts (l : List ℤ) : Text := (l.takeWhile fun c => decide (c ≠ -1)).map charOfInt

namespace BufScanner

/-- The text that is still to be read. This is no function of the code. -/
def text (s : BufScanner) : Text := textOfInts (s.char :: (s.buffer.drop s.pos ++ s.file.rest).map signedChar)

/-- `Scanner::Scanner` (Scanner.cpp:28-40). The buffer is given as full, so that the first character is read from the file. -/
def start (file : InFile) (capacity : ℕ) : BufScanner := ⟨file, 1, 32, List.replicate 16 none, List.replicate capacity 0, capacity, capacity⟩

/-- The number of bytes that can still be read, and one. This bounds the loops. -/
def left (s : BufScanner) : ℕ := s.file.rest.length + (s.buffer.length - s.pos) + 1

/-- `Scanner::readBuffer` (Scanner.cpp:304-316). -/
def readBuffer (s : BufScanner) : ℤ × BufScanner :=
  if s.buffer.length < s.capacity ∧ (s.file.eof = true ∨ s.file.err = true) then (-1, s)
  else
    match s.file.read s.capacity with
    | ([], f) => (-1, ⟨f, s.line, s.char, s.tmp, [], s.capacity, 0⟩)
    | (b :: got, f) => (signedChar b, ⟨f, s.line, s.char, s.tmp, b :: got, s.capacity, 1⟩)

/-- `Scanner::getChar` (Scanner.h:272-283). -/
def getChar (s : BufScanner) : Except ScanStop (ℤ × BufScanner) :=
  let line := if s.char = 10 then s.line + 1 else s.line
  if s.pos = s.buffer.length then .ok (s.char, ⟨s.readBuffer.2.file, line, s.readBuffer.1, s.tmp, s.readBuffer.2.buffer, s.capacity, s.readBuffer.2.pos⟩)
  else
    match s.buffer[s.pos]? with
    | none => .error .undefined
    | some b => .ok (s.char, ⟨s.file, line, signedChar b, s.tmp, s.buffer, s.capacity, s.pos + 1⟩)

/-- `while (p(peek())) getChar();` -/
def skip (p : ℤ → Bool) : ℕ → BufScanner → Except ScanStop BufScanner
  | 0, _ => .error .undefined
  | n + 1, s => if p s.char then s.getChar.bind fun r => skip p n r.2 else .ok s

/-- `Scanner::eatWhite` (Scanner.h:267-270). -/
def white (s : BufScanner) : Except ScanStop BufScanner := skip spaceInt (s.left + 1) s

/-- `_tmpString[i] = c`. -/
def putTmp (s : BufScanner) (i : ℕ) (c : ℤ) : Except ScanStop BufScanner :=
  if i < s.tmp.length then .ok ⟨s.file, s.line, s.char, s.tmp.set i (some c), s.buffer, s.capacity, s.pos⟩ else .error .undefined

/-- `Scanner::growTmpString` (Scanner.cpp:243-253). -/
def growTmp (s : BufScanner) : BufScanner :=
  ⟨s.file, s.line, s.char, s.tmp ++ List.replicate s.tmp.length none, s.buffer, s.capacity, s.pos⟩

/-- The loops that read into `_tmpString` (Scanner.cpp:113-118, 136-141 and 263-268). -/
def gather (p : ℤ → Bool) : ℕ → ℕ → BufScanner → Except ScanStop (ℕ × BufScanner)
  | 0, _, _ => .error .undefined
  | n + 1, size, s =>
    if p s.char then do
      let r ← s.getChar
      let s ← r.2.putTmp size r.1
      gather p n (size + 1) (if size + 1 = s.tmp.length then s.growTmp else s)
    else .ok (size, s)

/-- The loop and the `'\0'` after it. -/
def gatherString (p : ℤ → Bool) (size : ℕ) (s : BufScanner) : Except ScanStop (ℕ × BufScanner) := do
  let r ← gather p (s.left + 1) size s
  let s ← r.2.putTmp r.1 0
  pure (r.1, s)

/-- The text that starts at a `char` of an array and ends before a `'\0'`. -/
def cString : List (Option ℤ) → Except ScanStop Text
  | [] => .error .undefined
  | none :: _ => .error .undefined
  | some c :: l => if c = 0 then .ok [] else (cString l).map fun t => charOfInt c :: t

/-- `Scanner::match` (Scanner.h:215-222). -/
def matchC (c : Char) (s : BufScanner) : Except ScanStop (Bool × BufScanner) := do
  let s ← s.white
  if intOfChar c = s.char then do
    let r ← s.getChar
    pure (true, r.2)
  else pure (false, s)

/-- `Scanner::expect(char)` (Scanner.h:231-236). -/
def expectC (c : Char) (s : BufScanner) : Except ScanStop (Unit × BufScanner) := do
  let s ← s.white
  let r ← s.getChar
  if r.1 = intOfChar c then pure ((), r.2) else .error (.syntaxError r.2.line)

/-- The loop of `Scanner::expect(const char*)` (Scanner.cpp:52-74); `first` is true before the first character. -/
def expectLoop : Bool → Text → BufScanner → Except ScanStop (Unit × BufScanner)
  | _, [], s => .ok ((), s)
  | first, c :: l, s => do
    let r ← s.getChar
    if intOfChar c = r.1 then expectLoop false l r.2
    else if r.1 = -1 ∧ first = true then .error (.syntaxError r.2.line)
    else do
      let s ← skip alnumInt (r.2.left + 1) r.2
      .error (.syntaxError s.line)

/-- `Scanner::expect(const char*)` (Scanner.cpp:46-75). -/
def expectT (t : Text) (s : BufScanner) : Except ScanStop (Unit × BufScanner) := do
  let s ← s.white
  expectLoop true t s

/-- `Scanner::expectEOF` (Scanner.cpp:77-85) for a format other than `null`. -/
def expectEnd (s : BufScanner) : Except ScanStop (Unit × BufScanner) := do
  let s ← s.white
  let r ← s.getChar
  if r.1 = -1 then pure ((), r.2) else .error (.syntaxError r.2.line)

/-- `Scanner::readIdentifier()` (Scanner.cpp:255-272), with the text that is at the pointer that is returned. -/
def identifier (s : BufScanner) : Except ScanStop (Text × BufScanner) := do
  let s ← s.white
  if alphaInt s.char then do
    let r ← gatherString idInt 0 s
    let t ← cString r.2.tmp
    pure (t, r.2)
  else .error (.syntaxError s.line)

/-- The loop of `Scanner::readIdentifier(string&)` (Scanner.h:196-198). -/
def stringLoop : ℕ → Text → BufScanner → Except ScanStop (Text × BufScanner)
  | 0, _, _ => .error .undefined
  | n + 1, str, s => do
    let r ← s.getChar
    let str := str ++ [charOfInt r.1]
    if idInt r.2.char then stringLoop n str r.2 else pure (str, r.2)

/-- `Scanner::readIdentifier(string&)` (Scanner.h:191-199). -/
def identifierString (s : BufScanner) : Except ScanStop (Text × BufScanner) := do
  let s ← s.white
  if alphaInt s.char then stringLoop (s.left + 1) [] s else .error (.syntaxError s.line)

/-- `Scanner::peekIdentifier` (Scanner.h:257-260). -/
def peekId (s : BufScanner) : Except ScanStop (Bool × BufScanner) := do
  let s ← s.white
  pure (alphaInt s.char, s)

/-- `Scanner::peek(char)` (Scanner.h:262-265). -/
def peekC (c : Char) (s : BufScanner) : Except ScanStop (Bool × BufScanner) := do
  let s ← s.white
  pure (decide (s.char = intOfChar c), s)

/-- `Scanner::matchEOF` (Scanner.h:210-213). -/
def atEnd (s : BufScanner) : Except ScanStop (Bool × BufScanner) := do
  let s ← s.white
  pure (decide (s.char = -1), s)

/-- `Scanner::readIntegerString` (Scanner.cpp:101-125). -/
def integerString (s : BufScanner) : Except ScanStop (ℕ × BufScanner) := do
  let s ← s.white
  let s ←
    if s.char = 45 ∨ s.char = 43 then do
      let r ← s.getChar
      r.2.putTmp 0 r.1
    else s.putTmp 0 43
  let r ← gatherString digitInt 1 s
  if r.1 = 1 then .error (.syntaxError r.2.line) else pure r

/-- `Scanner::readIntegerStringNoSign` (Scanner.cpp:127-148). -/
def digitString (s : BufScanner) : Except ScanStop (ℕ × BufScanner) := do
  let s ← s.white
  if s.char = 45 ∨ s.char = 43 then .error (.syntaxError s.line)
  else do
    let r ← gatherString digitInt 0 s
    if r.1 = 0 then .error (.syntaxError r.2.line) else pure r

/-- The fast loop of `Scanner::parseInteger` (Scanner.cpp:158-160). -/
def smallLoop (tmp : List (Option ℤ)) : ℕ → ℕ → ℤ → Except ScanStop ℤ
  | 0, _, l => .ok l
  | n + 1, i, l =>
    match tmp[i]? with
    | some (some c) => smallLoop tmp n (i + 1) (10 * l + (c - 48))
    | _ => .error .undefined

/-- `mpz_set_str` in base 10. A text that is no number leaves the integer as it was, which is counted as undefined here. -/
def setStr10 : Text → Except ScanStop ℤ
  | '-' :: r => if r ≠ [] ∧ r.all isDigit then .ok (-(digitsValue r : ℤ)) else .error .undefined
  | t => if t ≠ [] ∧ t.all isDigit then .ok (digitsValue t) else .error .undefined

/-- `Scanner::parseInteger` (Scanner.cpp:150-169). A number of eight digits fits into a `signed long`. -/
def parse (tmp : List (Option ℤ)) (size : ℕ) : Except ScanStop ℤ :=
  match tmp[0]? with
  | some (some sign) =>
    if size < 10 then (smallLoop tmp (size - 1) 1 0).map fun l => if sign = 45 then -l else l
    else (cString (if sign ≠ 45 then tmp.drop 1 else tmp)).bind setStr10
  | _ => .error .undefined

/-- `Scanner::readInteger` (Scanner.h:238-241). -/
def integer (s : BufScanner) : Except ScanStop (ℤ × BufScanner) := do
  let r ← s.integerString
  let x ← parse r.2.tmp r.1
  pure (x, r.2)

/-- `Scanner::readIntegerNoSign(string&)` (Scanner.h:252-255); `readIntegerNoSign(mpz_class&)` (247-250) makes a number of it. -/
def digits (s : BufScanner) : Except ScanStop (Text × BufScanner) := do
  let r ← s.digitString
  let t ← cString r.2.tmp
  pure (t, r.2)

/-- `Scanner::readSizeT` (Scanner.cpp:205-241) for a `size_t` of 64 bits. -/
def sizeT (s : BufScanner) : Except ScanStop (ℕ × BufScanner) := do
  let r ← s.integer
  if 0 ≤ r.1 ∧ r.1 < 2 ^ 64 then pure (r.1.toNat, r.2) else .error (.syntaxError r.2.line)

/-- The end of `readIntegerAndNegativeAsZero` (Scanner.cpp:181-185). -/
def signedAsZero (s : BufScanner) : Except ScanStop (ℕ × BufScanner) := do
  let r ← s.integerString
  match r.2.tmp[0]? with
  | some (some sign) =>
    if sign = 45 then pure (0, r.2)
    else do
      let x ← parse r.2.tmp r.1
      pure (x.toNat, r.2)
  | _ => .error .undefined

/-- `Scanner::readIntegerAndNegativeAsZero(mpz_class&)` (Scanner.cpp:171-186). -/
def nonNegative (s : BufScanner) : Except ScanStop (ℕ × BufScanner) :=
  if s.char = 48 then do
    let r ← s.getChar
    if digitInt r.2.char then signedAsZero r.2 else pure (0, r.2)
  else signedAsZero s

end BufScanner

/-- What a reader can ask of a scanner. The number of characters that are left is no function of the code: it bounds loops in models of
readers. -/
inductive ScanOp
  | white
  | matchC (c : Char)
  | expectC (c : Char)
  | expectT (s : Text)
  | identifier
  | identifierString
  | peekId
  | peekC (c : Char)
  | peekWhite
  | atEnd
  | integer
  | digits
  | sizeT
  | nonNegative
  | charsLeft

/-- What it gets. -/
def ScanOp.Result : ScanOp → Type
  | .white | .expectC _ | .expectT _ => Unit
  | .matchC _ | .peekId | .peekC _ | .peekWhite | .atEnd => Bool
  | .identifier | .identifierString | .digits => Text
  | .integer => ℤ
  | .sizeT | .nonNegative | .charsLeft => ℕ

/-- From the bytes of the file. -/
def ScanOp.onFile : (o : ScanOp) → BufScanner → Except ScanStop (o.Result × BufScanner)
  | .white, s => s.white.map fun s => ((), s)
  | .matchC c, s => s.matchC c
  | .expectC c, s => s.expectC c
  | .expectT t, s => s.expectT t
  | .identifier, s => s.identifier
  | .identifierString, s => s.identifierString
  | .peekId, s => s.peekId
  | .peekC c, s => s.peekC c
  | .peekWhite, s => .ok (spaceInt s.char, s)
  | .atEnd, s => s.atEnd
  | .integer, s => s.integer
  | .digits, s => s.digits
  | .sizeT, s => s.sizeT
  | .nonNegative, s => s.nonNegative
  | .charsLeft, s => .ok (s.text.length, s)

/-- A reader: it asks the scanner, goes on with what it gets, reports an error of its own, or is done. -/
inductive ScanProg (α : Type) : Type
  | done (a : α)
  | fail
  | ask (o : ScanOp) (k : o.Result → ScanProg α)

/-- A reader on the bytes of a file. -/
def ScanProg.onFile {α : Type} : ScanProg α → BufScanner → Except ScanStop (α × BufScanner)
  | .done a, s => .ok (a, s)
  | .fail, s => .error (.syntaxError s.line)
  | .ask o k, s =>
    match o.onFile s with
    | .error e => .error e
    | .ok (b, s') => (k b).onFile s'

/-- A reader on the bytes of a file, with a new scanner, and then `expectEOF`. -/
def ScanProg.readFile {α : Type} (p : ScanProg α) (file : InFile) (capacity : ℕ) : Except ScanStop α := do
  let r ← p.onFile (.start file capacity)
  let _ ← r.2.expectEnd
  pure r.1

end Frobby
