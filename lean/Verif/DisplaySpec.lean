import Verif.DisplayModel

/-!
# What it means to break a text into lines and to print columns
-/

namespace Frobby

/-- Lines as a text, each with the end of the line. -/
def unlines (ls : List Text) : Text := ls.flatMap fun l => l ++ ['\n']

/-- No blanks. -/
def Solid (t : Text) : Prop := ∀ c ∈ t, isSpace c = false

/-- Only blanks. -/
def Blanks (t : Text) : Prop := ∀ c ∈ t, isSpace c = true

/-- The text has no blanks at its ends. -/
def NoEndBlanks (t : Text) : Prop := (∀ c ∈ t.head?, isSpace c = false) ∧ ∀ c ∈ t.getLast?, isSpace c = false

/-- A text is broken into pieces that are printed on lines of their own, where `start` characters precede each piece and the lines have room for `width` characters.

* No piece has blanks at its ends, and what is between two pieces and after the last piece are blanks.
* Each piece fits into its line unless it has no blanks.
* There is an end of a line only where the next word does not fit. -/
inductive Broken (width start : ℕ) : Text → List Text → Prop
  | last {c g : Text} (ht : NoEndBlanks c) (hf : start + c.length ≤ width ∨ Solid c) (hg : Blanks g) : Broken width start (c ++ g) [c]
  | more {c g b c' w : Text} {cs : List Text} (ht : NoEndBlanks c) (hf : start + c.length ≤ width ∨ Solid c) (hg : Blanks g) (he : g ≠ [] ∨ c = [] ∧ 0 < start)
      (hw : Solid w) (hp : w <+: c') (hb : width < start + (c ++ g ++ w).length) (h : Broken width start b (c' :: cs)) : Broken width start (c ++ g ++ b) (c :: c' :: cs)

/-- The lines that a line of a message is printed as: all begin with the prefix and with the blanks that the line begins with. -/
def Laid (width : ℕ) (pre line : Text) (out : List Text) : Prop :=
  ∃ ind body chunks, line = ind ++ body ∧ Blanks ind ∧ (∀ c ∈ body.head?, isSpace c = false) ∧ Broken width (pre.length + ind.length) body chunks ∧
    out = chunks.map fun c => pre ++ ind ++ c

/-- The words of a text. -/
def wordsOf (t : Text) : List Text := (t.splitOnP isSpace).filter fun w => !w.isEmpty

/-- A text that has been filled up with spaces to the width, on the right or on the left. -/
def filledUp (flushLeft : Bool) (width : ℕ) (t : Text) : Text := if flushLeft then t ++ List.replicate (width - t.length) ' ' else List.replicate (width - t.length) ' ' ++ t

/-- The lines of a text. The last line need not have an end if it is not empty. -/
def HasLines (t : Text) (ls : List Text) : Prop :=
  (∀ l ∈ ls, '\n' ∉ l) ∧ (t = unlines ls ∨ ∃ ls' l, l ≠ [] ∧ ls = ls' ++ [l] ∧ t = unlines ls' ++ l)

/-- The largest of some numbers, or zero. -/
def largest (ns : List ℕ) : ℕ := ns.foldr max 0

/-- The rows of a table: in row `i` stand the `i`th lines of the columns, filled up to the width of the column. -/
def tableRows (pre : Text) (cols : List (Column × List Text)) : List Text :=
  (List.range (largest (cols.map fun c => c.2.length))).map fun i =>
    pre ++ cols.flatMap fun c => c.1.pre ++ filledUp c.1.flushLeft (largest (c.2.map List.length)) (c.2.getD i []) ++ c.1.suf

end Frobby
