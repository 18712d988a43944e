import Verif.ScanBufModel

/-!
# What a scanner should do, on a text

What a reader asks of a scanner, with the functions of `ScanModel`. If there is an error, what is left of the text when it is reported tells
the line number.
-/

namespace Frobby

/-- What is left when a text is not the expected one: the character that is different and letters and digits after it are read too. -/
def stripRest : Text → Text → Text
  | c :: s, d :: t => if c = d then stripRest s t else t.dropWhile fun c => isAlpha c || isDigit c
  | _, t => t

/-- What is left after a sign, if there is one. -/
def afterSign : Text → Text
  | [] => []
  | c :: r => if c = '-' ∨ c = '+' then r else c :: r

/-- Go on with what was read, or report an error when there is so much left. -/
def orRest {α : Type} (r : Text) : Option α → Except Text α
  | none => .error r
  | some a => .ok a

/-- From a text: the result and what is left, or what is left when an error is reported. -/
def ScanOp.onText : (o : ScanOp) → Text → Except Text (o.Result × Text)
  | .white, t => .ok ((), eatWhite t)
  | .matchC c, t => .ok (matchChar c t)
  | .expectC c, t => orRest (eatWhite t).tail ((expectChar c t).map fun r => ((), r))
  | .expectT u, t => orRest (stripRest u (eatWhite t)) ((expectText u t).map fun r => ((), r))
  | .identifier, t => orRest (eatWhite t) (readIdentifier t)
  | .identifierString, t => orRest (eatWhite t) (readIdentifier t)
  | .peekId, t => .ok (peekIdentifier t, eatWhite t)
  | .peekC c, t => .ok (peekChar c t, eatWhite t)
  | .peekWhite, t => .ok (Frobby.peekWhite t, t)
  | .atEnd, t => .ok (matchEOF t, eatWhite t)
  | .integer, t => orRest (afterSign (eatWhite t)) (readInteger t)
  | .digits, t => orRest (eatWhite t) (readIntegerStringNoSign t)
  | .sizeT, t => orRest (match readInteger t with | some p => p.2 | none => afterSign (eatWhite t)) (readSizeT t)
  | .nonNegative, t => orRest (afterSign (eatWhite t)) (readNonNegative t)
  | .charsLeft, t => .ok (t.length, t)

/-- The characters that are asked for are those of ASCII. -/
def ScanOp.Ascii : ScanOp → Prop
  | .matchC c | .expectC c | .peekC c => c.toNat < 128
  | .expectT s => ∀ c ∈ s, c.toNat < 128
  | _ => True

/-- A reader on a text. -/
def ScanProg.onText {α : Type} : ScanProg α → Text → Except Text (α × Text)
  | .done a, t => .ok (a, t)
  | .fail, t => .error t
  | .ask o k, t =>
    match o.onText t with
    | .error r => .error r
    | .ok (b, t') => (k b).onText t'

/-- All characters that are asked for are those of ASCII. -/
def ScanProg.Ascii {α : Type} : ScanProg α → Prop
  | .done _ => True
  | .fail => True
  | .ask o k => o.Ascii ∧ ∀ b, (k b).Ascii

/-- A reader on a text, and then the end of the text is required. -/
def ScanProg.readText {α : Type} (p : ScanProg α) (t : Text) : Except Text α :=
  match p.onText t with
  | .error r => .error r
  | .ok (a, r) => if matchEOF r then .ok a else .error (eatWhite r).tail

/-- The text of a file: its bytes up to the first one that is 255. -/
def fileText (bytes : List FileByte) : Text := (bytes.takeWhile fun b => decide (b.val ≠ 255)).map fun b => Char.ofNat b.val

end Frobby
