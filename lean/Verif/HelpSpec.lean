import Verif.CommandSpec
import Verif.DisplaySpec

/-!
# What the help tells
-/

namespace Frobby

/-- The value is of the kind that the word stands for, and the text, given as the argument of the option, sets the option to this value. -/
def Describes (v : PVal) (kind text : Text) : Prop :=
  ((kind = t!"[BOOL]" ∧ ∃ b, v = .bool b) ∨ (kind = t!"INTEGER" ∧ ∃ n, v = .int n) ∨ (kind = t!"STRING" ∧ ∃ s, v = .str s)) ∧
    Sets v [text] v ∧ text.head? ≠ some '-'

/-- The names are in the order of a dictionary in which the characters are ordered by their codes. -/
def InOrder (names : List Text) : Prop := (names.map fun n => n.map Char.toNat).Pairwise (· < ·)

/-- A row of the list of the actions. -/
def actionRow (name short : Text) : Text := t!" " ++ List.replicate (12 - name.length) ' ' ++ name ++ t!" - " ++ short

end Frobby
