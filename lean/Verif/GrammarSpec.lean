import Verif.PropsIO

/-!
# Specification: what the texts of the formats mean

The grammars of the formats of ideals, as relations between a text, what it means and the text that is left. There are no
algorithms here. The words, the numbers and the signs of a text can have blank space around them.
-/

namespace Frobby

/-- Blank space. -/
def Blank (w : Text) : Prop := ∀ c ∈ w, c = ' ' ∨ 9 ≤ c.toNat ∧ c.toNat ≤ 13

/-- A relation between a text and what is left of it. -/
abbrev Gram := Text → Text → Prop

/-- One and then the other. -/
def Gram.seq (P Q : Gram) : Gram := fun t r => ∃ u, P t u ∧ Q u r

@[inherit_doc] infixr:65 " ⊹ " => Gram.seq

/-- One or the other. -/
def Gram.or (P Q : Gram) : Gram := fun t r => P t r ∨ Q t r

/-- A condition that does not depend on the text. -/
def Gram.when (p : Prop) : Gram := fun t r => p ∧ t = r

/-- Blank space, a word, blank space. -/
def lit (s : Text) : Gram := fun t r => ∃ w w', Blank w ∧ Blank w' ∧ t = w ++ s ++ w' ++ r

/-- A character of a name. -/
def IsNameChar (c : Char) : Prop := IsLetter c ∨ ('0' ≤ c ∧ c ≤ '9') ∨ c = '_'

/-- A name. What follows cannot be a character of the name. -/
def nameG (x : Text) : Gram := fun t r =>
  AllowedName x ∧ ∃ w w', Blank w ∧ Blank w' ∧ t = w ++ x ++ w' ++ r ∧ ∀ c ∈ (w' ++ r).head?, ¬ IsNameChar c

/-- A sign and digits. What follows cannot be a digit. -/
def digitsG (sign ds : Text) : Gram := fun t r =>
  ds ≠ [] ∧ (∀ c ∈ ds, '0' ≤ c ∧ c ≤ '9') ∧
    ∃ w w', Blank w ∧ Blank w' ∧ t = w ++ sign ++ ds ++ w' ++ r ∧ ∀ c ∈ (w' ++ r).head?, ¬ ('0' ≤ c ∧ c ≤ '9')

/-- The value of digits. -/
def valueIn (b : ℕ) (ds : Text) : ℕ := Nat.ofDigits b (ds.reverse.map fun c => c.toNat - 48)

/-- An exponent: a decimal number, or an octal number if there is a leading zero. -/
def exponentG (e : ℕ) : Gram := fun t r => ∃ ds, digitsG [] ds t r ∧
  if ds.head? = some '0' then (∀ c ∈ ds, c ≤ '7') ∧ e = valueIn 8 ds else e = valueIn 10 ds

/-- A number of things. It is a decimal number, and it can have a sign. -/
def sizeG (x : ℕ) : Gram := fun t r => x < 2 ^ 64 ∧ ∃ sign ds, digitsG sign ds t r ∧ x = valueIn 10 ds ∧
  (sign = [] ∨ sign = t!"+" ∨ sign = t!"-" ∧ x = 0)

/-- At least one thing, with separators between them. -/
inductive SepBy {α : Type} (P : α → Gram) (sep : Text) : List α → Gram
  | one {a : α} {t r : Text} : P a t r → SepBy P sep [a] t r
  | cons {a : α} {as : List α} {t r : Text} {u v : Text} : P a t u → lit sep u v → SepBy P sep as v r → SepBy P sep (a :: as) t r

/-- Things one after the other. -/
inductive Many {α : Type} (P : α → Gram) : List α → Gram
  | nil {t r : Text} : lit [] t r → Many P [] t r
  | cons {a : α} {as : List α} {t r : Text} {u : Text} : P a t u → Many P as u r → Many P (a :: as) t r

/-- The product of powers of variables. Exponents of the same variable are added. -/
def productOf (n : ℕ) (ps : List (ℕ × ℕ)) : List ℕ := (List.range n).map fun v => ((ps.filter fun p => p.1 = v).map Prod.snd).sum

/-- An exponent after a variable: `^` and the exponent, or nothing. -/
def powerG (e : ℕ) : Gram := Gram.or (Gram.when (e = 1)) (lit t!"^" ⊹ exponentG e)

/-- A power of a variable. -/
def varPowerG (names : List Text) (p : ℕ × ℕ) : Gram := fun t r => ∃ x, names[p.1]? = some x ∧ (nameG x ⊹ powerG p.2) t r

/-- A variable can be repeated only after powers with exponent zero. -/
def Fresh (ps : List (ℕ × ℕ)) : Prop := ps.Pairwise fun p q => p.1 = q.1 → p.2 = 0

/-- A product of powers of variables. -/
def productG (names : List Text) (e : List ℕ) : Gram := fun t r =>
  lit t!"1" t r ∧ e = productOf names.length [] ∨
    ∃ ps, SepBy (varPowerG names) t!"*" ps t r ∧ Fresh ps ∧ e = productOf names.length ps

/-- A product in Macaulay 2, with an optional name of a ring. -/
def productM2G (names : List Text) (e : List ℕ) : Gram := fun t r =>
  productG names e t r ∨ ∃ x, (productG names e ⊹ lit t!"_" ⊹ nameG x) t r

/-- A power of a variable in CoCoA 4. -/
def varPowerCoCoAG (n : ℕ) (p : ℕ × ℕ) : Gram := fun t r =>
  p.1 < n ∧ (lit t!"x" ⊹ lit t!"[" ⊹ sizeG (p.1 + 1) ⊹ lit t!"]" ⊹ powerG p.2) t r

/-- A product in CoCoA 4. -/
def productCoCoAG (names : List Text) (e : List ℕ) : Gram := fun t r =>
  lit t!"1" t r ∧ e = productOf names.length [] ∨
    ∃ ps, ps ≠ [] ∧ Many (varPowerCoCoAG names.length) ps t r ∧ Fresh ps ∧ e = productOf names.length ps

/-- An exponent in 4ti2. Negative numbers count as zero. -/
def exponent4ti2G (e : ℕ) : Gram := fun t r => exponentG e t r ∨ e = 0 ∧ ∃ ds, (lit t!"-" ⊹ digitsG [] ds) t r

/-- A row of exponents. -/
def row4ti2G (n : ℕ) (e : List ℕ) : Gram := fun t r => e.length = n ∧ Many exponent4ti2G e t r

/-- Different names with separators between them. -/
def namesG (sep : Text) (names : List Text) : Gram := fun t r => names.Nodup ∧ SepBy nameG sep names t r

/-- Different names, one after the other. -/
def manyNamesG (names : List Text) : Gram := fun t r => names.Nodup ∧ Many nameG names t r

/-- A name between quotation marks, with no space between them. -/
def quotedG (x : Text) : Gram := fun t r => AllowedName x ∧ lit ('"' :: x ++ ['"']) t r

/-- The ring in Macaulay 2. -/
def ringM2G (names : List Text) : Gram := fun t r => ∃ R : Text, R.head? = some 'R' ∧ ∃ brace : Bool,
  (nameG R ⊹ lit t!"=" ⊹ Gram.or (lit t!"ZZ") (lit t!"QQ") ⊹ lit t!"[" ⊹ lit (if brace then t!"{" else []) ⊹
    Gram.or (Gram.when (names = [])) (namesG t!"," names) ⊹ lit (if brace then t!"}" else []) ⊹ lit t!"]" ⊹ lit t!";") t r

/-- The ring in CoCoA 4. -/
def ringCoCoAG (names : List Text) : Gram := fun t r => names.Nodup ∧
  (lit t!"Use" ⊹ lit t!"R" ⊹ lit t!"::=" ⊹ lit t!"Q" ⊹ lit t!"[" ⊹ lit t!"x" ⊹
    Gram.or (Gram.when (names = [])) (lit t!"[" ⊹ lit t!"1" ⊹ lit t!".." ⊹ sizeG names.length ⊹ lit t!"]") ⊹ lit t!"]" ⊹ lit t!";" ⊹
    lit t!"Names" ⊹ lit t!":=" ⊹ lit t!"[" ⊹ Gram.or (Gram.when (names = [])) (SepBy quotedG t!"," names) ⊹ lit t!"]" ⊹ lit t!";") t r

/-- The ring in Singular. There has to be a variable. No variables are indicated by a variable with the name dummy. -/
def ringSingularG (names : List Text) : Gram := fun t r => ∃ written : List Text, ∃ digit : Text,
  (digit = t!"0" ∧ names = written ∨ digit = t!"1" ∧ written = [t!"dummy"] ∧ names = []) ∧
  (lit t!"ring" ⊹ lit t!"R" ⊹ lit t!"=" ⊹ lit t!"0" ⊹ lit t!"," ⊹ lit t!"(" ⊹ namesG t!"," written ⊹ lit t!")" ⊹ lit t!"," ⊹
    lit t!"lp" ⊹ lit t!";" ⊹ lit t!"int" ⊹ lit t!"noVars" ⊹ lit t!"=" ⊹ lit digit ⊹ lit t!";") t r

/-- The ring in Monos. -/
def ringMonosG (names : List Text) : Gram :=
  lit t!"vars" ⊹ Gram.or (Gram.when (names = [])) (namesG t!"," names) ⊹ lit t!";"

/-- The ideal in Macaulay 2. -/
def bareM2G (names : List Text) (terms : List (List ℕ)) : Gram :=
  lit t!"I" ⊹ lit t!"=" ⊹ lit t!"monomialIdeal" ⊹ lit t!"(" ⊹
    Gram.or (fun t r => terms = [] ∧ (lit t!"0" t r ∨ ∃ x, (lit t!"0" ⊹ lit t!"_" ⊹ nameG x) t r)) (SepBy (productM2G names) t!"," terms) ⊹
    lit t!")" ⊹ lit t!";"

/-- The ideal in CoCoA 4. The semicolon can be missing. -/
def bareCoCoAG (names : List Text) (terms : List (List ℕ)) : Gram :=
  lit t!"I" ⊹ lit t!":=" ⊹ lit t!"Ideal" ⊹ lit t!"(" ⊹ Gram.or (Gram.when (terms = [])) (SepBy (productCoCoAG names) t!"," terms) ⊹
    lit t!")" ⊹ Gram.or (lit []) (lit t!";")

/-- The ideal in Singular. -/
def bareSingularG (names : List Text) (terms : List (List ℕ)) : Gram :=
  lit t!"ideal" ⊹ lit t!"I" ⊹ lit t!"=" ⊹
    Gram.or (Gram.when (terms = []) ⊹ lit t!"0") (SepBy (productG names) t!"," terms) ⊹ lit t!";"

/-- The ideal in Monos. -/
def bareMonosG (names : List Text) (terms : List (List ℕ)) : Gram :=
  lit t!"[" ⊹ Gram.or (Gram.when (terms = [])) (SepBy (productG names) t!"," terms) ⊹ lit t!"]" ⊹ lit t!";"

/-- Ring and ideal in the new format of Monos. -/
def newMonosG (I : NamedIdeal) : Gram :=
  lit t!"(" ⊹ lit t!"monomial-ideal-with-order" ⊹ lit t!"(" ⊹ lit t!"lex-order" ⊹ manyNamesG I.names ⊹ lit t!")" ⊹
    Many (productG I.names) I.terms ⊹ lit t!")"

/-- A matrix of exponents in 4ti2, and the names of the variables, which are `x1`, `x2`, … if they are missing. -/
def fourti2G (I : NamedIdeal) : Gram :=
  sizeG I.terms.length ⊹ sizeG I.names.length ⊹ Many (row4ti2G I.names.length) I.terms ⊹
    Gram.or (Gram.when (I.names = (List.range I.names.length).map fun i => 'x' :: decimal (i + 1))) (manyNamesG I.names)

/-- The text of an ideal in a format. -/
def idealG (f : IOFormat) (I : NamedIdeal) : Gram :=
  match f with
  | .m2 => ringM2G I.names ⊹ bareM2G I.names I.terms
  | .cocoa4 => ringCoCoAG I.names ⊹ bareCoCoAG I.names I.terms
  | .singular => ringSingularG I.names ⊹ bareSingularG I.names I.terms
  | .monos => ringMonosG I.names ⊹ bareMonosG I.names I.terms
  | .newmonos => newMonosG I
  | .fourti2 => fourti2G I

/-- A whole text that means an ideal. -/
def Means (f : IOFormat) (t : Text) (I : NamedIdeal) : Prop := (idealG f I ⊹ lit []) t []

end Frobby
