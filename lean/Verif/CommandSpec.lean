import Verif.CommandModel
import Verif.GrammarSpec

/-!
# What a command line means

An option is a token that starts with a dash. Its arguments are the tokens after it, up to the next option.
-/

namespace Frobby

/-- The text `p` stands for the name `x`: it is that name, or it is the beginning of that name and of no other one. -/
def StandsFor (names : List Text) (p x : Text) : Prop := x ∈ names ∧ (p = x ∨ p <+: x ∧ p ∉ names ∧ ∀ y ∈ names, p <+: y → y = x)

/-- A text for a number: blanks, perhaps a sign, a digit, and then digits and blanks. -/
def NumberText (s : Text) (z : ℤ) : Prop := ∃ (w sign u : Text), s = w ++ sign ++ u ∧ Blank w ∧ (∃ d ∈ u.head?, '0' ≤ d ∧ d ≤ '9') ∧
  (∀ c ∈ u, ('0' ≤ c ∧ c ≤ '9') ∨ Blank [c]) ∧
  (sign = [] ∧ z = valueIn 10 (u.filter fun c => '0' ≤ c ∧ c ≤ '9') ∨ sign = t!"-" ∧ z = -(valueIn 10 (u.filter fun c => '0' ≤ c ∧ c ≤ '9') : ℤ))

/-- The value of an option after it has been given the arguments. The first value is that before. -/
inductive Sets : PVal → List Text → PVal → Prop
  | flag (b : Bool) : Sets (.bool b) [] (.bool true)
  | on (b : Bool) : Sets (.bool b) [t!"on"] (.bool true)
  | off (b : Bool) : Sets (.bool b) [t!"off"] (.bool false)
  | int (n : ℕ) {s : Text} {m : ℕ} : NumberText s m → m < 2 ^ 32 → Sets (.int n) [s] (.int m)
  | str (s a : Text) : Sets (.str s) [a] (.str a)

/-- The tokens are these options with their arguments. -/
inductive Line (names : List Text) : List Text → List (Text × List Text) → Prop
  | nil : Line names [] []
  | cons {p x : Text} {args rest : List Text} {os : List (Text × List Text)} : StandsFor names p x → (∀ a ∈ args, a.head? ≠ some '-') →
      Line names rest os → Line names (('-' :: p) :: args ++ rest) ((x, args) :: os)

/-- The value of a parameter is the one of the last option with its name, or the default. -/
def HasValue (os : List (Text × List Text)) (p : Param) (v : PVal) : Prop :=
  match (os.filter fun o => o.1 = p.name).getLast? with
  | none => v = p.value
  | some o => Sets p.value o.2 v

/-- The command line is correct. -/
def Accepts (P : Params) (toks : List Text) (os : List (Text × List Text)) : Prop :=
  Line (P.map Param.name) toks os ∧ ∀ o ∈ os, ∀ p ∈ P, p.name = o.1 → ∃ v, Sets p.value o.2 v

end Frobby
