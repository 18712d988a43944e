import Verif.ScanModel

/-!
# Model of `display` and `ColumnPrinter` (src/display.cpp, src/ColumnPrinter.cpp)
-/

namespace Frobby

/-- `ConsoleWidth` (display.cpp:25). -/
def consoleWidth : ℕ := 79

/-- What `fputs` writes of a `string`: it ends at the first character of value zero. -/
def cstr (w : Text) : Text := w.takeWhile fun c => decide (c.toNat ≠ 0)

/-- What has been written, and `_lineSize` (display.cpp:124). -/
structure Printing where
  out : Text
  size : ℕ
deriving DecidableEq

/-- `Printer::printRaw` for a `string` (display.cpp:113-116). -/
def Printing.raw (s : Printing) (w : Text) : Printing := ⟨s.out ++ cstr w, s.size + w.length⟩

/-- `Printer::newLine` (display.cpp:82-85). -/
def Printing.newLine (s : Printing) : Printing := ⟨s.out ++ ['\n'], 0⟩

/-- `Printer::printWord` (display.cpp:96-111). -/
def printWord (pre ind : Text) (s : Printing) (gap word : Text) : Printing :=
  if s.size ≠ 0 ∧ s.size + (word.length + gap.length) > consoleWidth then ((s.newLine.raw pre).raw ind).raw word
  else (s.raw gap).raw word

/-- `printWord` after a word has been read (display.cpp:65-74); without a word nothing is printed. -/
def flushWord (pre ind : Text) (s : Printing) (gap word : Text) : Printing := if word = [] then s else printWord pre ind s gap word

/-- The loop over the characters of a line (display.cpp:50-77), with the space before the word and the word as read so far. The second component is what is left of
the message after the line. -/
def printLine (pre ind : Text) : Printing → Text → Text → Text → Printing × Text
  | s, gap, word, [] => (flushWord pre ind s gap word, [])
  | s, gap, word, c :: cs =>
    if c = '\n' then (flushWord pre ind s gap word, cs)
    else if isSpace c then
      if word = [] then printLine pre ind s (gap ++ [c]) [] cs else printLine pre ind (printWord pre ind s gap word) [c] [] cs
    else printLine pre ind s gap (word ++ [c]) cs

/-- The blanks that `Printer::readIndentation` reads (display.cpp:87-94). -/
def isIndent (c : Char) : Bool := decide (c ≠ '\n') && isSpace c

/-- The loop over the lines (display.cpp:35-78). The first argument bounds the number of lines. -/
def displayLoop (pre : Text) : ℕ → Text → Text
  | 0, _ => []
  | fuel + 1, msg =>
    if msg = [] then []
    else
      let ind := msg.takeWhile isIndent
      let s := ((Printing.mk [] 0).raw pre).raw ind
      match msg.dropWhile isIndent with
      | [] => s.out
      | c :: cs =>
        if c = '\n' then s.newLine.out ++ displayLoop pre fuel cs
        else
          let r := printLine pre ind s [] [] (c :: cs)
          r.1.newLine.out ++ displayLoop pre fuel r.2

/-- `display` (display.cpp:131-133): what is written to the standard error. -/
def display (msg pre : Text) : Text := displayLoop pre msg.length msg

/-! ## columns -/

/-- `ColumnPrinter::Col` (ColumnPrinter.h:41-46). -/
structure Column where
  flushLeft : Bool
  pre : Text
  suf : Text
  text : Text

/-- The characters up to the next end of a line, of which `getLineWidth` gives the number (ColumnPrinter.cpp:24-29). -/
def lineOf (t : Text) : Text := t.takeWhile fun c => decide (c ≠ '\n')

/-- What is left after the line (ColumnPrinter.cpp:85-87, 116-123). -/
def afterLine (t : Text) : Text := (t.dropWhile fun c => decide (c ≠ '\n')).tail

/-- The width of a column (ColumnPrinter.cpp:72-89). The first argument bounds the number of lines. -/
def columnWidth : ℕ → ℕ → Text → ℕ
  | 0, w, _ => w
  | fuel + 1, w, t => if t = [] then w else columnWidth fuel (if w < (lineOf t).length then (lineOf t).length else w) (afterLine t)

/-- A cell of a row (ColumnPrinter.cpp:107-129) for a column, its width and what is left of its text. -/
def printCell (col : Column) (width : ℕ) (t : Text) : Text :=
  let spaces := List.replicate (width - (lineOf t).length) ' '
  col.pre ++ (if !col.flushLeft then spaces else []) ++ lineOf t ++ (if col.flushLeft then spaces else []) ++ col.suf

/-- The loop over the rows (ColumnPrinter.cpp:92-131). The columns come with their widths and with what is left of their texts. The first argument bounds the number of
rows. -/
def printRows (pre : Text) : ℕ → List (Column × ℕ × Text) → Text
  | 0, _ => []
  | fuel + 1, cols =>
    if cols.all fun c => decide (c.2.2 = []) then []
    else pre ++ (cols.flatMap fun c => printCell c.1 c.2.1 c.2.2) ++ ['\n'] ++ printRows pre fuel (cols.map fun c => (c.1, c.2.1, afterLine c.2.2))

/-- `ColumnPrinter::print` (ColumnPrinter.cpp:69-132). -/
def printColumns (pre : Text) (cols : List Column) : Text :=
  printRows pre ((cols.map fun c => c.text.length).sum + 1) (cols.map fun c => (c, columnWidth c.text.length 0 c.text, c.text))


end Frobby
